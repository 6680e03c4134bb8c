import json
P=[]
def p(title, statement, quant, why, *anchors):
    P.append(dict(id="C%02d"%(len(P)+1), title=title, statement=statement, quantifier=quant, why_tests_cant=why, anchors=list(anchors)))
SAMPLE="A test fixes one data set and one weights matrix; the identity must hold for every size and every value."
# --- spatial lags and instruments
p("Spatial-lag blocks are powers of W",
  "The spatial-lag builder called with k variables and L lags returns exactly k*L columns: the columns of Wx, then of W^2x, ..., then of W^Lx, each block in the variable order of x; the 'split' variant returns the same blocks with the last power separated from the lower ones.",
  "every weights operator, every list of columns, every number of lags", "column order and block structure for arbitrary k and L; tests use L=1 or 2", "spreg/utils.py:get_lags","spreg/utils.py:get_lags_split")
p("Names of lagged variables align with the lagged columns",
  "The generated names of lagged variables are in one-to-one, in-order correspondence with the generated columns: the name at position i is the label (W_, W2_, ...) and variable of the column at position i.",
  "every list of names, every lag order and every flag list selecting which variables are lagged", "a wrong interleaving appears only for particular (k, L, mask) combinations", "spreg/user_output.py:set_name_spatial_lags","spreg/user_output.py:flex_wx","spreg/utils.py:get_lags")
p("Durbin instruments: names align with instrument columns",
  "When Durbin models build extra instruments from lagged x, the list of instrument names is aligned with the instrument columns.",
  "every variable list, lag order, q_lags and slx_vars selection","mislabelling has no numerical effect, so numerical regression tests never see it; it depends on the selection mask", "spreg/user_output.py:flex_wx")
p("Lag-model instruments are the successive lags of x",
  "For a lag model without Durbin terms, the endogenous regressor is Wy appended after user endogenous variables, and the instruments are the user's instruments followed by Wx,...,W^p x (and Wq,...,W^p q when lag_q), with no duplicated or missing power; the sparse variant returns the same instruments as the dense one.",
  "every y, x, yend, q, W and w_lags","tests use w_lags 1 or 2 only; the recursion has to be right for every w_lags","spreg/utils.py:set_endog","spreg/utils.py:set_endog_sparse")
p("Durbin lag-model instruments start right after the included lags",
  "With slx_lags = s > 0 the instruments for Wy are W^{s+1}x,...,W^{s+p}x of the lagged variables, whether or not other endogenous variables are given, and with a boolean slx_vars list this works for every s.",
  "every slx_lags, w_lags, slx_vars selection, presence of yend","combinatorial space of options","spreg/utils.py:set_endog","spreg/twosls_sp.py:GM_Lag")
# --- OLS / WLS / TSLS
p("OLS satisfies the normal equations and decomposes y",
  "Whenever OLS returns, y = predy + u, predy = x*betas, and every column of x is orthogonal to u; OLS raises exactly when x'x is singular.",
  "every n, k, x, y","algebraic identity over all data "+SAMPLE,"spreg/ols.py:BaseOLS","spreg/utils.py:RegressionPropsVM")
p("OLS minimises the sum of squared residuals, uniquely",
  "For every other coefficient vector the sum of squared residuals is at least utu, with equality only for betas.",
  "every x, y with x'x nonsingular and every competing vector","quantifies over all competing vectors","spreg/ols.py:BaseOLS")
p("OLS does not depend on observation order, and is equivariant",
  "Permuting observations of y and x leaves betas and utu unchanged and permutes u; replacing y by c*y + x*d changes betas to c*betas+d and u to c*u; replacing x by x*T with invertible T leaves predy and u unchanged.",
  "every permutation, scale, shift and change of basis","quantifies over all permutations and transformations","spreg/ols.py:BaseOLS")
p("Weighted least squares is OLS on the square-root weighted data",
  "The WLS coefficients solve the weighted normal equations x'Wx b = x'Wy and residuals/predicted values refer to the unweighted data (y = predy + u).",
  "every positive weight vector, x, y", SAMPLE,"spreg/ols.py:BaseWLS","spreg/utils.py:RegressionPropsY")
p("2SLS residuals are orthogonal to the projected regressors",
  "Two-stage least squares residuals u = y - z*betas are orthogonal to the exogenous x and to the first-stage fitted values of the endogenous variables.",
  "every x, yend, instruments with the needed inverses", SAMPLE,"spreg/twosls.py:BaseTSLS")
p("2SLS special cases: instruments equal regressors, just-identified IV",
  "If every regressor lies in the column space of the instruments, 2SLS returns the OLS coefficients; if there are exactly as many instruments as regressors, the residuals are orthogonal to all instruments (IV estimator).",
  "every data set in the special case","an algebraic reduction; tests check one data set","spreg/twosls.py:BaseTSLS","spreg/ols.py:BaseOLS")
p("White variance is symmetric positive semidefinite; HAC with identity kernel is White",
  "The White-robust variance matrix is symmetric and positive semidefinite; HAC with a symmetric kernel matrix is symmetric, with a positive semidefinite kernel is positive semidefinite and with the identity kernel coincides with White.",
  "every x, residual vector and kernel matrix","a counterexample could hide at any data","spreg/robust.py:robust_vm","spreg/robust.py:hac_multi","spreg/robust.py:spw")
# --- GMM error
p("Kelejian-Prucha moment equations reproduce the sample moments",
  "For every lambda and sigma2, g - G(lambda, lambda^2, sigma2)' equals the vector of the sample moments of the filtered residual e = u - lambda*Wu: (e'e/n - s2, e'W'We/n - s2*tr(W'W)/n, e'We/n).",
  "every W, u, lambda, sigma2","polynomial identity in all entries of W and u","spreg/error_sp.py:_momentsGM_Error","spreg/utils.py:optim_moments")
p("Two-equation moment conditions (het and hom) reproduce quadratic forms",
  "For the heteroskedastic and homoskedastic GM estimators, g - G(lambda, lambda^2)' equals the quadratic forms e'A_1e/n and e'A_2e/n of the filtered residual e = u - lambda*Wu, and the minimised objective is their (weighted) sum of squares.",
  "every W, u, A and lambda","polynomial identity in all entries","spreg/utils.py:_moments2eqs","spreg/error_sp_hom.py:moments_hom","spreg/utils.py:foptim_par")
p("A1 matrices have the required null diagonal/trace and symmetry",
  "A1 for the heteroskedastic case is W'W with zero diagonal and symmetric; for the homoskedastic case it is symmetric with zero trace (also in the scaled variant); A2 is symmetric and gives the same quadratic form as W.",
  "every square weights matrix", SAMPLE,"spreg/utils.py:get_A1_het","spreg/utils.py:get_A1_hom","spreg/utils.py:get_A2_hom")
p("Spatial filtering inverts the spatial error process",
  "The spatially filtered variable is x - lambda*Wx; filtering is linear, the filter with lambda = 0 is the identity, filtering the output of the spatial error process e=(I-lambda W)^{-1}v recovers v, and the GM error residual decomposition e_filtered = u - lambda*Wu holds.",
  "every W, lambda, x",SAMPLE,"spreg/utils.py:get_spFilter","spreg/error_sp.py:BaseGM_Error","spreg/dgp.py:dgp_sperror")
# --- LM diagnostics
p("LM-SARMA decomposes into one simple and one robust test",
  "Whenever the LM statistics are produced, LM_SARMA = LM_lag + RLM_error = LM_error + RLM_lag.",
  "every OLS fit and every weights matrix","identity between five separately coded statistics","spreg/diagnostics_sp.py:lmErr","spreg/diagnostics_sp.py:lmLag","spreg/diagnostics_sp.py:rlmErr","spreg/diagnostics_sp.py:rlmLag","spreg/diagnostics_sp.py:lmSarma")
p("Durbin LM tests: robust statistics are the differences and are nonnegative",
  "The joint spatial Durbin LM statistic minus LM-WX is the robust LM-lag(Durbin) statistic, minus LM-lag is the robust LM-WX statistic, and both robust statistics are nonnegative.",
  "every OLS fit, W and X","a sign property of a quadratic form over all data","spreg/diagnostics_sp.py:lm_wx","spreg/diagnostics_sp.py:lm_spdurbin","spreg/diagnostics_sp.py:rlm_wx","spreg/diagnostics_sp.py:rlm_durlag")
p("LM statistics are unit free",
  "LM-error, LM-lag, their robust versions, LM-SARMA and Moran's I do not change when the dependent variable is rescaled by any nonzero constant.",
  "every scale, data set and weights matrix","quantifies over all scales","spreg/diagnostics_sp.py:LMtests","spreg/diagnostics_sp.py:MoranRes")
p("LM statistics are nonnegative whenever the normaliser is positive",
  "LM-error, LM-lag and robust statistics are nonnegative; LM-error is zero exactly when u'Wu = 0.",
  "every data set", SAMPLE,"spreg/diagnostics_sp.py:lmErr","spreg/diagnostics_sp.py:lmLag")
p("The diagnostics cache never serves a stale or different value",
  "Any sequence of reads of the cached quantities used by the LM tests returns, for each quantity, the value that a fresh computation returns, and each is computed at most once.",
  "every order and number of reads","all access histories","spreg/diagnostics_sp.py:spDcache")
p("Derived regression properties behave like memoised attributes",
  "For mean_y, std_y, utu, sig2n, sig2n_k and vm: a read returns the last value assigned, otherwise the value computed at the first read; reads never change what later reads return; assignments to one property do not disturb another already read.",
  "every history of reads, assignments and changes of the underlying data","all operation histories","spreg/utils.py:RegressionPropsY","spreg/utils.py:RegressionPropsVM")
# --- regimes
p("Regime expansion places every observation in its own block",
  "The regime-expanded design has, in the row of observation i, the values x_i in the columns of the regime of i and zeros everywhere else; it is the block-diagonal design up to row order, and summing the blocks recovers x.",
  "every x, every regime labelling","arbitrary interleavings of regimes over rows","spreg/regimes.py:x2xsp","spreg/regimes.py:regimeX_setup")
p("Regime variable names align with expanded columns",
  "The names generated for a regime model (regime_variable for varying, _Global_variable for fixed) are in the same order and number as the columns of the regime design, for every choice of which variables vary.",
  "every number of regimes, variables and cols2regi flags, constant 'many' or 'one'","depends on flags and ordering","spreg/regimes.py:set_name_x_regimes","spreg/regimes.py:Regimes_Frame","spreg/regimes.py:regimeX_setup")
p("The regimes set is sorted, duplicate-free and complete",
  "The set of regimes lists each label that occurs exactly once in sorted order, and the regime index lists partition the observations.",
  "every regimes list","all label sequences","spreg/regimes.py:_get_regimes_set","spreg/regimes.py:Regimes_Frame")
p("Chow restriction matrix tests equality across regimes",
  "The restriction matrix built for one variable has kr-1 rows and R*b = 0 exactly when the coefficients of that variable coincide in all regimes; the global matrix stacks all of them.",
  "every number of regimes, variables, coefficients","kernel characterisation over all coefficient vectors","spreg/regimes.py:buildR1var","spreg/regimes.py:buildR","spreg/regimes.py:Chow")
p("Wald statistic is nonnegative and invariant",
  "The Wald statistic is nonnegative when the variance is positive definite, zero exactly when R*b = q and unchanged when the restrictions are rewritten by an invertible transformation.",
  "every R, q, b, V","algebraic; all transformations","spreg/regimes.py:wald_test","spreg/regimes.py:Wald")
p("Fully-varying pooled regimes equals separate regressions",
  "OLS on the regime-expanded design with all coefficients varying gives, for each regime, the coefficients of OLS on the observations of that regime alone, and the same residuals.",
  "every data set and regime labelling","algebraic equality for every labelling","spreg/ols_regimes.py:OLS_Regimes","spreg/regimes.py:x2xsp")
p("Parallel regime estimation is schedule independent",
  "With regime_err_sep the multi-regression object is the same for every completion order of the worker processes and equals the sequential run.",
  "every schedule","all interleavings","spreg/ols_regimes.py:OLS_Regimes._ols_regimes_multi")
# --- expansion / multipliers / dgp
p("Power expansion approximates the inverse with explicit remainder",
  "After m steps the power expansion is the partial sum of rho^k W^k x; multiplied by (I - rho W) it gives x minus rho^{m+1}W^{m+1}x; if the loop stops normally the last term's largest entry is below the threshold and otherwise an exception is raised; at most max_iterations terms are added.",
  "every W, x, rho, threshold, max_iterations","loop behaviour for every input","spreg/utils.py:power_expansion","spreg/utils.py:inverse_prod")
p("Spatial multipliers partition total impact into direct and indirect",
  "For every supported method ATI = 1/(1-rho) = ADI + AII; for a row-standardised W the full method's ADI+AII is the average row sum of (I-rho W)^{-1}; the power method approximates ADI of the full method.",
  "every W, rho, tolerance","stopping rule for every W","spreg/sputils.py:spmultiplier","spreg/sputils.py:_sp_effects")
p("Individual multipliers conserve totals",
  "In the lag model the sums over locations of effects-of and effects-on neighbours agree, diag + off-diagonal row sums equal the row sums of the inverse; for row-standardised weights each location's total is 1/(1-rho).",
  "every weights matrix, coefficient", SAMPLE,"spreg/sputils.py:i_multipliers")
p("Data generating processes solve their structural equations",
  "dgp_lag/dgp_spdurbin/dgp_sperror/dgp_lagerr/dgp_gns return y that satisfies y = rho W y + x b + WX g + error, and mismatched dimensions return None.",
  "every input of matching or mismatching dimensions", SAMPLE,"spreg/dgp.py:dgp_lag","spreg/dgp.py:dgp_sperror","spreg/dgp.py:dgp_spdurbin","spreg/dgp.py:dgp_gns")
p("Reduced-form prediction of lag models",
  "For lag models predy_e solves (I - rho W) predy_e = x*beta and e_pred = y - predy_e; if rho is outside (-1,1) no prediction is made and a warning is returned.",
  "every rho, W", SAMPLE,"spreg/utils.py:sp_att","spreg/utils.py:inverse_prod")
# --- ML
p("Three Jacobian methods agree",
  "The log-Jacobian used by method full, LU and ord of ML lag/error agree: log|det(I-rho W)| computed from the determinant, the LU factors or the eigenvalues.",
  "every W and rho with nonsingular I - rho W and positive determinant", SAMPLE,"spreg/ml_lag.py:lag_c_loglik","spreg/ml_lag.py:lag_c_loglik_sp","spreg/ml_lag.py:lag_c_loglik_ord","spreg/sputils.py:splogdet")
p("The covariance matrix does not depend on the ML method chosen",
  "For a row-standardised W, the estimated variance matrix of ML_Lag/ML_Error with method 'ord' equals that with method 'full' at the same parameters.",
  "every W","differences appear only with asymmetric W","spreg/ml_lag.py:BaseML_Lag","spreg/ml_error.py:BaseML_Error")
p("ML lag residuals and concentrated likelihood",
  "The residuals u = e0 - rho*e1 equal y - rho*Wy - x*betas, they are orthogonal to x, and the concentrated log-likelihood equals the full log-likelihood at the conditional optimum.",
  "every y,x,W,rho", SAMPLE,"spreg/ml_lag.py:BaseML_Lag")
# --- panel / SUR
p("Panel demeaning removes individual effects and is a projection",
  "Demeaning subtracts the individual time mean; it is idempotent, maps time-invariant variables to zero and with phi=1 is the identity.",
  "every n, T, data", SAMPLE,"spreg/panel_utils.py:demean_panel")
p("Wide panel data are stacked period by period",
  "Wide panel input of shape n x (k*T) is turned into nT x k so that row t*n+i, column v holds the value of variable v, unit i, period t; bad shapes are rejected.",
  "every n, k, T, entries","index arithmetic for every shape","spreg/panel_utils.py:check_panel")
p("SUR dictionary/matrix conversions are inverse",
  "Converting coefficients from per-equation dictionaries to a stacked vector and back is the identity for every number of equations and variables.",
  "every equation count and sizes", SAMPLE,"spreg/sur_utils.py:sur_mat2dict","spreg/sur_utils.py:sur_dict2mat")
p("SUR estimator solves GLS normal equations and nests OLS",
  "The SUR coefficients satisfy the stacked GLS equations with Sigma^{-1} (x) I, and reduce to equation-by-equation OLS if Sigma is diagonal or all equations share regressors.",
  "every number of equations, Sigma and data", SAMPLE,"spreg/sur_utils.py:sur_est","spreg/sur_utils.py:sur_crossprod","spreg/sur.py:BaseSUR")
# --- diagnostics
p("R-squared lies in [0,1] and adjusted R-squared never exceeds it",
  "For OLS with a constant 0 <= r2 <= 1, and ar2 <= r2.",
  "every data set with y not constant", SAMPLE,"spreg/diagnostics.py:r2","spreg/diagnostics.py:ar2")
p("Information criteria are consistent with the log-likelihood",
  "AIC = 2k - 2*loglik and Schwarz = k*log(n) - 2*loglik for the reported log-likelihood, and the LR test is nonnegative, symmetric in which model is larger in likelihood.",
  "every n, k, utu > 0", SAMPLE,"spreg/diagnostics.py:akaike","spreg/diagnostics.py:schwarz","spreg/diagnostics.py:log_likelihood","spreg/diagnostics.py:likratiotest")
p("VIF is at least one", "The variance inflation factor of every non-constant regressor is at least 1.","every design", SAMPLE,"spreg/diagnostics.py:vif")
# --- search
p("Specification search always returns exactly one model consistent with the tests",
  "For each search strategy, every combination of test outcomes yields exactly one reported model name, the final regression estimated is the one reported and the choice is the one the strategy's decision tree prescribes.",
  "all combinations of p-values (including ties and NaN) and thresholds","the decision table has many cells, tests touch a few","spreg/spsearch.py:stge_classic","spreg/spsearch.py:stge_kb","spreg/spsearch.py:stge_pre","spreg/spsearch.py:gets_gns","spreg/spsearch.py:gets_sdm")
# --- skater
p("Skater: each accepted cut adds one region and refines the partition",
  "Starting from a spanning forest, each accepted cut increases the number of regions by exactly one, the new partition refines the old one, every region satisfies the quorum and the total score never increases.",
  "every tree, score function, quorum, requested number of clusters","loop invariant over every history of cuts","spreg/skater_reg.py:Skater_reg.fit","spreg/skater_reg.py:Skater_reg.find_cut")
p("Skater always returns a partition",
  "fit returns labels for all observations for every input, also when no admissible cut exists.",
  "every tree, quorum, n_clusters","needs an input where no cut is admissible","spreg/skater_reg.py:Skater_reg.fit","spreg/skater_reg.py:Skater_reg.find_cut")
# --- loops and checks
p("GM iterations stop at convergence or at the iteration bound, and say which",
  "The iterated GM estimators perform at most max_iter iterations, and the stop message tells whether convergence or the bound stopped the run.",
  "every sequence of estimates, epsilon, max_iter","all iteration histories","spreg/error_sp_het.py:BaseGM_Error_Het","spreg/error_sp_hom.py:BaseGM_Error_Hom","spreg/utils.py:iter_msg")
p("Iterated SUR respects the maximum number of iterations",
  "The iterated SUR/3SLS never performs more than maxiter iterations.",
  "every determinant history","all histories","spreg/sur.py:BaseSUR","spreg/sur.py:BaseThreeSLS")
p("Input checks accept exactly the valid inputs",
  "check_arrays, check_y, check_weights, check_robust, check_spat_diag, check_reg_list, check_regimes raise exactly for the documented invalid inputs and return n / normalised values otherwise.",
  "every combination of argument shapes and options","decision tables over all shapes","spreg/user_output.py:check_arrays","spreg/user_output.py:check_y","spreg/user_output.py:check_weights","spreg/user_output.py:check_robust","spreg/user_output.py:check_spat_diag","spreg/user_output.py:check_reg_list")
p("Constant columns are dropped together with their names",
  "check_constant removes exactly the constant columns, keeps the others in order, and the returned names stay aligned with the returned columns; a single constant is then prepended. The check of the diagnostics (constant_check) says that there is a constant exactly when all entries of some column are equal.",
  "every matrix and name list","positions and multiplicity of constant columns vary","spreg/user_output.py:check_constant","spreg/sputils.py:spmin")
p("Warnings accumulate","Setting a warning on a regression object keeps all earlier warnings in order.","every sequence of warnings","histories","spreg/utils.py:set_warn")
p("The spatially weighted symmetrisation is symmetric and similar to W",
  "For row-standardised weights derived from a symmetric binary W, the symmetrised matrix is symmetric and similar to W, hence has the same eigenvalues.",
  "every symmetric W with positive row sums", SAMPLE,"spreg/w_utils.py:symmetrize","spreg/ml_lag.py:BaseML_Lag")
p("Instrument names of spatial lag models",
  "The instrument-name builder lists W_v for every instrument variable v, then W2_v, ..., up to W{p}_v, excluding the constant; with lag_q the names of the extra instruments and of their lags follow in the order of the columns.",
  "every list of names, every w_lags and lag_q flag","the order only matters for w_lags >= 2 with several variables","spreg/user_output.py:set_name_q_sp")
p("Lag-model names align with regressors and instruments",
  "For the spatial lag model the reported list of regressor names has one name per column of the estimated design and the reported list of instrument names has one name per column of the instrument matrix, in the same order.",
  "every variable list, slx_lags, w_lags, slx_vars, yend and q","labels have no numerical effect; options interact","spreg/twosls_sp.py:GM_Lag","spreg/user_output.py:set_name_q_sp","spreg/user_output.py:flex_wx")
p("Classical variance matrix is symmetric positive semidefinite",
  "The OLS variance matrix sig2 * (x'x)^-1 is symmetric positive semidefinite and the large-sample variance never exceeds the degrees-of-freedom corrected one when n > k.",
  "every x, y with x'x nonsingular", SAMPLE,"spreg/utils.py:RegressionPropsVM")
p("Variance of heteroskedastic moments is positive semidefinite",
  "The 2x2 variance matrix of the moment conditions of the heteroskedastic GM estimator is symmetric and positive semidefinite, for the A1 and residual matrices the code passes to it.",
  "every W, residual vector and lambda", SAMPLE,"spreg/error_sp_het.py:get_vc_het","spreg/error_sp_het.py:get_psi_sigma")
p("Common factor test is a Wald test of the common factor restriction",
  "The common factor statistic is nonnegative and zero exactly when lag coefficient times beta plus the WX coefficient vanishes for every variable; its derivative matrix is the Jacobian of that restriction.",
  "every parameter vector and variance matrix", SAMPLE,"spreg/diagnostics_sp.py:comfac_test")
p("Every requested LM statistic is computed",
  "For every list of requested tests, the LM test object holds every requested statistic (and nothing fails because one test needs the result of another).",
  "every list of requested tests","2^n subsets and orders","spreg/diagnostics_sp.py:LMtests")
p("Moran's I of residuals has the Cliff-Ord moments",
  "The reported expectation and variance of Moran's I are the Cliff-Ord moments written with the residual-maker matrix M: E = (n/S0) tr(MW)/(n-k), and V from tr(MWMW'), tr(MWMW), tr(MW)^2.",
  "every W, x with x'x nonsingular", SAMPLE,"spreg/diagnostics_sp.py:MoranRes","spreg/diagnostics_sp.py:get_vI","spreg/diagnostics_sp.py:get_eI")
p("Chow tests test the coefficients they name",
  "The position restricted for variable v and regime g in a Chow test is the position of the coefficient of v in regime g in the estimated model.",
  "every number of regimes, mask of varying variables, constant option","combinations of global and varying variables","spreg/regimes.py:Chow","spreg/regimes.py:buildR1var","spreg/twosls_regimes.py:TSLS_Regimes","spreg/ols_regimes.py:OLS_Regimes")
p("cols2regi is normalised to one flag per variable",
  "check_cols2regi returns one flag per variable (plus the constant when asked), all true for 'all', and raises exactly for a list of the wrong length.",
  "every option and list","all lengths","spreg/regimes.py:check_cols2regi")
p("Variables constant in some regime are dropped with their names",
  "check_const_regi keeps exactly the variables that vary in every regime, in order, and the returned names stay attached to their columns.",
  "every matrix, regime labelling and list of names","positions and multiplicity","spreg/regimes.py:check_const_regi")
p("Optimal number of regimes lies in the trace and is unit free",
  "optim_k returns a number between the window size and the length of the trace and does not depend on the unit in which the sum of squares is measured.",
  "every trace and window","all histories","spreg/utils.py:optim_k")
p("Groupwise heteroskedastic weights are positive and keep the pooled estimates",
  "The variance estimated for a regime is positive whenever the regime has positive degrees of freedom; with all coefficients varying the groupwise weighted step returns the unweighted coefficients.",
  "every labelling, residual vector, number of regressors","all labellings","spreg/regimes.py:_get_weighted_var","spreg/ols_regimes.py:OLS_Regimes")
p("Estimation does not change the caller's arrays and weights",
  "Constructing an estimator leaves the NumPy arrays given by the caller exactly as they were (values and shape) and the weights object with the transform it had.",
  "every list of endogenous variables and instruments, every weights object","aliasing with caller-owned objects of every shape","spreg/user_output.py:check_endog","spreg/w_utils.py:symmetrize")
p("ML information matrices are positive semidefinite",
  "The information matrices inverted by ML_Lag and ML_Error are positive semidefinite for every W, rho and data, so that the reported variances are nonnegative.",
  "every W, parameter value and data set",SAMPLE,"spreg/ml_lag.py:BaseML_Lag","spreg/ml_error.py:BaseML_Error")
p("The log-Jacobian is defined on the whole search interval",
  "For row-standardised (or substochastic) nonnegative weights with zero diagonal, det(I - rho W) is positive for every rho in the search interval (-1, 1), so the concentrated likelihood is finite there.",
  "every such W and rho",SAMPLE,"spreg/ml_lag.py:lag_c_loglik","spreg/ml_error.py:err_c_loglik")
p("Wide panels keep the periods of a variable together",
  "When a wide panel is prepared, the regressors that reach the estimator are the variables that vary, each stacked period by period; removing constant columns never mixes two variables in one column.",
  "every number of variables, periods, units and every pattern of constant columns","all patterns of constant columns","spreg/panel_utils.py:prepare_panel","spreg/panel_utils.py:check_panel","spreg/user_output.py:check_constant")
p("Iterated SUR never loses likelihood and its LR test is nonnegative",
  "Iterating the SUR estimator never lowers the reported log-likelihood, the likelihood-ratio test of a diagonal covariance matrix is nonnegative for the two-step and the iterated estimator, residuals plus predictions give the data, and the starting values are the OLS estimates.",
  "every number of equations, data set, tolerance and iteration bound","all iteration histories and data","spreg/sur.py:BaseSUR","spreg/diagnostics_sur.py:sur_lrtest")
p("SUR specification tests are nonnegative, unit free and based on the score",
  "The Breusch-Pagan statistic is n times the sum of squared residual correlations; the LM error and LM lag statistics are nonnegative for nonnegative weights, are built from the score of the likelihood and do not depend on the units of the dependent variables.",
  "every number of equations, weights and data", SAMPLE,"spreg/diagnostics_sur.py:sur_lmtest","spreg/diagnostics_sur.py:surLMe","spreg/diagnostics_sur.py:surLMlag")
p("Three-stage least squares starts from 2SLS and nests it",
  "The second-stage coefficients of ThreeSLS are the 2SLS coefficients of each equation, the error covariance uses residuals of the original regressors, and with a diagonal covariance matrix the 3SLS coefficients are the 2SLS ones.",
  "every number of equations and data", SAMPLE,"spreg/sur.py:BaseThreeSLS","spreg/sur.py:_sur_2sls","spreg/sur.py:_get_bigZhat")
p("F statistics compare nested regressions",
  "The overall F statistic of an OLS regression equals the comparison of its sum of squared residuals with that of the constant-only regression, the F statistic of the last variables equals the comparison with the regression without them, and for one variable it is the square of its t statistic.",
  "every design with a constant and nonsingular x'x, every y", SAMPLE,"spreg/diagnostics.py:f_stat","spreg/diagnostics.py:t_stat")
p("Heteroskedasticity tests are nonnegative, unit free and use a duplicate-free design",
  "Breusch-Pagan, Koenker-Bassett and White statistics are nonnegative and do not change when the residuals are rescaled; Koenker-Bassett equals n R-squared of the auxiliary regression (so at most n); White's auxiliary design contains every product and square once and reports the number of auxiliary regressors minus one as degrees of freedom.",
  "every design and residual vector","depends on which columns coincide","spreg/diagnostics.py:breusch_pagan","spreg/diagnostics.py:koenker_bassett","spreg/diagnostics.py:white")
p("User-supplied variables in heteroskedasticity tests",
  "breusch_pagan and koenker_bassett accept the documented optional array z of explanatory variables for the variance.",
  "every array z","no test passes z","spreg/diagnostics.py:breusch_pagan","spreg/diagnostics.py:koenker_bassett")
p("Jarque-Bera is nonnegative, unit free and zero exactly at normal moments",
  "The Jarque-Bera statistic is nonnegative, invariant under shift and nonzero rescaling of the residuals, and zero exactly when skewness is 0 and kurtosis is 3.",
  "every residual vector with positive variance", SAMPLE,"spreg/diagnostics.py:jarque_bera")
p("The condition index is at least one and unit free",
  "The multicollinearity condition number is defined for every full-rank design, at least 1, equal to 1 exactly for orthogonal columns, and unchanged when a column is rescaled.",
  "every full-rank design", SAMPLE,"spreg/diagnostics.py:condition_index")
p("Durbin-Wu-Hausman is the F test of the augmented regression",
  "The DWH statistic equals the F comparison of the regression of y on the regressors with and without the first-stage quantities, is nonnegative and has as numerator degrees of freedom the number of endogenous variables; exactly exogenous variables raise.",
  "every design, set of instruments and y", SAMPLE,"spreg/diagnostics_tsls.py:dwh")
p("The pseudo R-squared is a squared correlation",
  "The reported pseudo R-squared is the squared correlation of y and predictions, lies in [0,1] and equals the R-squared for OLS with a constant.",
  "every y and prediction", SAMPLE,"spreg/utils.py:RegressionPropsY","spreg/ml_lag.py:ML_Lag")
p("Panel LM tests are the stacked cross-section tests",
  "The panel LM and robust LM tests for lag and error equal the corresponding cross-sectional tests applied to the pooled regression with block-diagonal weights.",
  "every n, T, W and data", SAMPLE,"spreg/diagnostics_panel.py:panel_LMlag","spreg/diagnostics_panel.py:panel_LMerror","spreg/diagnostics_panel.py:panel_rLMlag","spreg/diagnostics_panel.py:panel_rLMerror")
p("The Hausman statistic is nonnegative with the right degrees of freedom",
  "When random effects are efficient, the panel Hausman statistic is nonnegative and is referred to a chi-squared distribution with as many degrees of freedom as compared coefficients.",
  "every pair of estimates and variance matrices", SAMPLE,"spreg/diagnostics_panel.py:panel_Hausman")
p("The BSK tests can be requested in every combination",
  "Every selection of the Baltagi-Song-Koh tests returns one row per requested test; the joint statistic is nonnegative and its p-value a probability.",
  "every selection, number of periods and data","2^5 selections; all data","spreg/diagnostics_panel.py")
p("LM statistics are the score statistics of the Gaussian likelihood",
  "For an OLS regression with nonzero residual and weights with zero diagonal, LM-error, LM-lag, LM-SARMA, LM-WX, the joint SLX-error and the joint spatial Durbin statistic equal the maximum, over the directions of the corresponding hypothesis (the tested parameters, with the coefficients and the variance free), of the squared derivative of the log-likelihood of y = rho W y + x beta + z gamma + u, u = lambda W u + eps at the OLS estimates divided by the expected information (minus the expected second derivative under uncorrelated errors of the fitted variance).",
  "every regression with invertible X'X and nonzero residual, every weights matrix with zero diagonal that is not antisymmetric, every selection of lagged regressors, every distribution of uncorrelated errors with the fitted variance",
  "tests compare each statistic with one stored number; they cannot show that it is the score test of its hypothesis for all data",
  "spreg/diagnostics_sp.py:lmErr", "spreg/diagnostics_sp.py:lmLag", "spreg/diagnostics_sp.py:lmSarma", "spreg/diagnostics_sp.py:lm_wx", "spreg/diagnostics_sp.py:lm_slxerr", "spreg/diagnostics_sp.py:lm_spdurbin")
p("Coefficients of GM_Endog_Error_Het are the spatially filtered IV estimates",
  "The coefficients of GM_Endog_Error_Het satisfy the two-stage least squares first-order conditions of the data filtered with the lambda of the previous pass: the instruments' projection of the filtered regressors is orthogonal to the filtered residuals.",
  "every data set, instruments, weights, optimiser, number of passes", "tests compare one fit with stored numbers",
  "spreg/error_sp_het.py:BaseGM_Endog_Error_Het")
p("The variance matrix of the heteroskedastic GM estimators is a variance matrix",
  "For GM_Error_Het and GM_Endog_Error_Het the reported variance matrix of coefficients and lambda is symmetric and positive semidefinite, and so is the weighting matrix of the moments, so no reported variance is negative.",
  "every data set, instruments, weights, optimiser and number of passes", "PSD must hold for all data; one stored matrix says nothing",
  "spreg/error_sp_het.py:get_vm_het","spreg/error_sp_het.py:get_Omega_GS2SLS","spreg/error_sp_het.py:get_vc_het","spreg/error_sp_het.py:get_vc_het_tsls")
p("The variance matrix of the homoskedastic GM estimators is a variance matrix",
  "For GM_Error_Hom and GM_Endog_Error_Hom the reported variance matrix of coefficients and lambda is symmetric and positive semidefinite, for every documented choice of A1; any other A1 raises.",
  "every data set, instruments, weights, optimiser, number of passes and A1", "PSD must hold for all data; one stored matrix says nothing",
  "spreg/error_sp_hom.py:get_vc_hom","spreg/error_sp_hom.py:get_omega_hom","spreg/error_sp_hom.py:get_omega_hom_ols")
p("Probit gradient and Hessian are the derivatives of its likelihood",
  "The gradient and the Hessian that Probit hands to the optimiser are the first and second derivatives of the probit log-likelihood it reports, in every direction, and the Hessian is symmetric.",
  "every design, 0/1 outcome and coefficient vector","a derivative is a statement about all nearby points","spreg/probit.py:BaseProbit")
p("A stationary probit fit is the unique maximum",
  "With 0/1 outcomes the probit log-likelihood is concave, so coefficients with zero gradient maximise the likelihood over all coefficient vectors; with regressors of full rank the Hessian is negative definite everywhere, the maximum is unique and the reported variance matrix is symmetric positive definite.",
  "every design, 0/1 outcome and coefficient vector","global optimality ranges over all coefficient vectors","spreg/probit.py:BaseProbit.par_est","spreg/probit.py:BaseProbit.hessian","spreg/probit.py:BaseProbit.vm")
p("Probit with Newton's method stops within maxiter steps and says whether it converged",
  "optim='newton' performs at most maxiter iterations on full-rank designs without raising, stays at a maximum it starts from, and sets the warning exactly when the last step exceeded the tolerance.",
  "every full-rank design, 0/1 outcome, starting point and maxiter","all iteration histories","spreg/probit.py:newton","spreg/probit.py:BaseProbit.par_est")
p("Probit residuals and predictions",
  "The generalised residuals are phi (y - Phi) / (Phi (1 - Phi)) and are orthogonal to the regressors at the maximum; predictions are probabilities strictly between 0 and 1, predybin is 1 exactly when the prediction exceeds one half; recoding y to 1 - y negates the estimates.",
  "every design and outcome","all designs and outcomes","spreg/probit.py:BaseProbit.u_gen","spreg/probit.py:BaseProbit.predy","spreg/probit.py:BaseProbit.predybin")
p("The probit classification table adds up",
  "Actual, predicted, true and false positives and negatives are counts that add up to n, and the measures of fit derived from them (percent correctly predicted, specificity, sensitivity) are percentages between 0 and 100.",
  "every accepted outcome and prediction","all data","spreg/diagnostics_probit.py:pred_table","spreg/diagnostics_probit.py:probit_fit")
p("Probit likelihood ratio test and McFadden rho",
  "The likelihood ratio statistic against the constant-only model is nonnegative at the maximum, McFadden's rho lies between 0 and 1, and the degrees of freedom are the number of slopes.",
  "every design with a constant and both outcomes present","all data","spreg/diagnostics_probit.py:probit_lrtest","spreg/diagnostics_probit.py:mcfad_rho")
p("Probit marginal effects come with their delta-method variance",
  "The marginal effects are the slopes times the chosen scale, their variance matrix is a variance matrix and is the delta-method variance of exactly these effects; any other scale raises.",
  "every design, outcome and scale","all data; derivative","spreg/diagnostics_probit.py:probit_ape")
p("Spatial tests of the probit model",
  "The Pinkse and Pinkse-Slade statistics are nonnegative, the Kelejian-Prucha statistic has a positive radicand and the sign of u'Wu, none of them changes when W is rescaled, and at a constant-only fit they agree with each other.",
  "every design, outcome and weights","all data and weights","spreg/diagnostics_probit.py:sp_tests","spreg/diagnostics_probit.py:moran_KP")
p("Panel fixed effects log-likelihood is the one of the model",
  "For the reported spatial parameter, logll of ML_LagFE and ML_ErrorFE is the log-density of the Gaussian spatial lag/error model with one free intercept per unit at the reported coefficients and sig2, and no coefficients, intercepts and variance give a larger one. The deprecated Panel_FE_Lag and Panel_FE_Error report the same quantity.",
  "every panel (any number of units and periods), weights and spatial parameter with I - rho W invertible","all data; maximum over a continuum; determinant of an NT x NT matrix","spreg/panel.py:BaseML_LagFE","spreg/panel.py:BaseML_ErrorFE","spreg/panel_fe.py:BasePanel_FE_Lag","spreg/panel_fe.py:BasePanel_FE_Error")
p("Panel random effects lag log-likelihood is the one of the model",
  "For the reported rho and ratio of variances, logll of ML_LagRE is the log-density of the Gaussian spatial lag model with an individual random effect at the reported coefficients and sig2, and it is maximal over coefficients and variance. The deprecated Panel_RE_Lag reports the same quantity.",
  "every panel, weights, rho and phi","all data; maximum over a continuum","spreg/panel.py:BaseML_LagRE","spreg/panel_re.py:BasePanel_RE_Lag")
p("Panel random effects error log-likelihood is the one of the model",
  "For the reported lambda and ratio of variances, logll of ML_ErrorRE is the log-density of the model with individual random effect plus spatially autoregressive errors at the reported coefficients and sig2, and it is maximal over coefficients and variance, for all weights including row-standardised ones.",
  "every panel, weights, lambda and ratio","all data and weights; eigen-decompositions","spreg/panel.py:BaseML_ErrorRE","spreg/panel.py:err_c_loglik_sp")
p("The random effects lag iteration ends, is consistent and climbs",
  "ML_LagRE makes between 1 and 100 passes; coefficients, residuals, sig2 and logll all belong to the reported rho and phi; and when the two bounded searches find minima, the final log-likelihood is at least that of the starting values.",
  "every panel, weights and behaviour of the bounded optimisers","all histories of the loop","spreg/panel.py:BaseML_LagRE")
p("Reported individual effects are the estimated intercepts",
  "The mu_i of ML_ErrorFE and ML_LagFE are the intercepts that, with the reported coefficients and variance, attain the reported log-likelihood.",
  "every panel and weights","all data","spreg/panel.py:ML_LagFE","spreg/panel.py:ML_ErrorFE")
p("Covariance matrices of the fixed effects panel models are covariance matrices",
  "The information matrix of ML_LagFE is symmetric positive semidefinite and the variances it yields are positive; the vm of ML_ErrorFE is symmetric positive semidefinite.",
  "every panel, weights and parameter","all data and weights","spreg/panel.py:BaseML_LagFE","spreg/panel.py:BaseML_ErrorFE")
p("Covariance matrix of the random effects lag model is symmetric",
  "cov(rho, phi) = cov(phi, rho) in the vm of ML_LagRE.",
  "every panel and weights","all data and weights","spreg/panel.py:BaseML_LagRE")
p("Covariance matrix of the random effects error model exists",
  "The information matrix of ML_ErrorRE is invertible at every admissible lambda, including no spatial correlation.",
  "every weights, number of periods, ratio and variance","all weights","spreg/panel.py:BaseML_ErrorRE")
p("PanelFE is least squares with unit dummies", "The coefficients of PanelFE for stacked data are those of an OLS regression with one dummy variable per unit added, its fixed effects are the dummy coefficients, its residual u is the residual of that regression plus the fixed effect of the unit, and PanelFE fails exactly when that regression has a singular cross-product matrix. The reported residual variance should use the degrees of freedom of that regression (observations minus units minus regressors). The reported xtxi is the matrix the reported variances are made of, as for OLS.", "all panels (any numbers of units and periods), dependent variables and regressors", "An identity between two regressions of different size, for all data.", "spreg/panel.py:PanelFE")
p("PanelRE is generalised least squares for the estimated variance components", "With the reported sigma2_epsilon > 0 and sigma2_mu >= 0, the coefficients of PanelRE minimise the generalised least squares criterion for the covariance matrix sigma2_epsilon I + sigma2_mu (same unit), theta lies in [0, 1), and theta = 0 (pooled OLS) when the between variance is too small.", "all panels for which the estimator succeeds", "A minimisation over all coefficient vectors, for all data.", "spreg/panel.py:PanelRE")
p("The Hausman statistic is non-negative", "The Hausman statistic of PanelRE is a quadratic form in a positive semidefinite matrix and so non-negative.", "all panels for which the estimator succeeds", "Sign of a quadratic form in the inverse of a difference of covariance matrices, for all data.", "spreg/panel.py:PanelRE")
p("The moments of GM_ErrorRE", "For every candidate spatial parameter and pair of variances, the six moments GM_ErrorRE minimises are the sample moments of the filtered residuals u - lambda W u and their spatial lag, as deviations from unit means and as unit means, minus the expectations these moments have under the error components model (weights with zero diagonal).", "all residuals, weights, parameter values, numbers of units and periods", "A polynomial identity in parameters and data.", "spreg/panel.py:BaseGM_ErrorRE")
p("The last step of GM_ErrorRE is generalised least squares", "The reported coefficients minimise the generalised least squares criterion for the covariance matrix of the error components with a spatial autoregressive process at the reported parameters; the variance matrix is the matching one, and e_filtered is u - lambda W u.", "all data and positive variance estimates, invertible I - lambda W", "A minimisation over all coefficient vectors, for all data and weights.", "spreg/panel.py:BaseGM_ErrorRE")
p("The weights of GM_ErrorRE are the covariance of the moments", "With full_weights=True the weighting matrix is the inverse of the covariance matrix (under normality) of the six moments, so it is positive definite and the estimator runs for all data for which full_weights=False runs.", "all spatial weights, all first step variances, numbers of units and periods", "Equality of matrices for all weights.", "spreg/panel.py:BaseGM_ErrorRE")
p("NSLX fitted values and criterion are those of nonlinear least squares", "The fitted values of NSLX are X b plus, for each lagged regressor, the sum over its neighbours of the kernel of the scaled distance at its own parameter times the neighbour's value; residuals, sum of squares and sig2 belong to these fitted values; and a minimiser of the criterion handed to the optimiser minimises the sum of squares over all coefficients and all non-negative kernel parameters.", "all data, weights, kernels and parameter values", "A minimisation over a continuum, for all data.", "spreg/nslx.py:BaseNSLX", "spreg/nslx.py:_nslxobj", "spreg/nslx.py:_nlmod")
p("The analytic gradient of NSLX is the derivative of the fitted values", "The gradient matrix from which NSLX computes its analytic variances holds the derivatives of the fitted values with respect to the kernel parameters.", "all data, weights made by the package, kernels and positive parameters", "A derivative is a statement about all nearby points.", "spreg/nslx.py:_nlmod", "spreg/nslx.py:_nltransform")
p("The variance matrix of NSLX is the one of nonlinear least squares", "The analytic variance matrix of NSLX is sig2 (J'J)^-1, where J holds the derivatives of the fitted values with respect to all coefficients and kernel parameters.", "all data, weights, kernels and parameters", "A matrix identity for all data.", "spreg/nslx.py:BaseNSLX")
p("Each lagged column of NSLX has its own name and parameters", "With params of length one or one entry per regressor and any slx_vars, lagged column i is named after its kernel and the i-th selected regressor, and its weights are made from that regressor's own parameters.", "all numbers of regressors, selections and parameter lists", "All selections and lengths.", "spreg/nslx.py:NSLX")
p("make_wnslx gives scaled distances in a matrix that can be used", "The weights store, for each unit and each of its neighbours and nothing else, the distance divided by the largest distance in the row (exponential) or 1 minus it (power), between 0 and 1; they do not depend on the unit of measurement, and have one row and one column per unit.", "all numbers of units and neighbours and all results of the neighbour query", "All point configurations.", "spreg/utils.py:make_wnslx")
p("The moments of SURerrorGM are those of each equation", "For every candidate spatial parameter and variance, the three moments SURerrorGM minimises for an equation are the sample moments of that equation's filtered residuals, and equal the ones GM_Error uses for the equation alone.", "all residuals, weights, parameters and numbers of equations", "A polynomial identity in parameters and data.", "spreg/sur_error.py:_momentsGM_sur_Error")
p("SURerrorGM is generalised least squares for the SUR spatial error covariance", "The coefficients minimise the generalised sum of squares of the stacked system for the covariance matrix of errors with a spatial autoregressive process per equation and correlation between equations, at the reported lambdas and covariance; varb is the inverse of the cross product; with zero lambdas the fit is the SUR fit.", "all data with invertible I - lambda W, any number of equations and regressors", "A minimisation over all coefficient vectors.", "spreg/sur_error.py:BaseSURerrorGM")
p("The log-likelihood of SURerrorML is the one of the model", "surerrllik is the log-density of the multivariate normal model with spatially autoregressive, cross-correlated errors at the reported coefficients and lambdas and the covariance of the filtered residuals, maximal over all covariance matrices; varb is the GLS variance matrix for the parameters of the last step.", "all data for which the estimator returns, whatever the optimisers return", "All data; determinant of a matrix of size n times number of equations.", "spreg/sur_error.py:BaseSURerrorML", "spreg/sur_error.py:clik", "spreg/sur_error.py:SURerrorML")
p("SURerrorML climbs the likelihood", "If the optimiser never returns a worse point than its start, the reported log-likelihood is at least the likelihood at the starting values (SUR coefficients, single-equation lambdas), for any covariance matrix.", "all data and optimiser behaviours", "All histories of the loop.", "spreg/sur_error.py:BaseSURerrorML")
p("SURerrorML ends", "The unbounded loop of SURerrorML terminates for every data set on which the likelihood is bounded when the optimiser never makes it worse, and its outcome is determined by the data.", "all data, optimisers that do not worsen the objective, positive epsilon", "Termination of a loop without bound on the passes.", "spreg/sur_error.py:BaseSURerrorML")
p("Likelihood-ratio tests of SURerrorML are non-negative", "errllik is the maximal log-likelihood of separate spatial error models at the single-equation lambdas; the tests of a diagonal covariance matrix and of zero lambdas compare nested models, so are non-negative at a maximum, with R(R-1)/2 and R degrees of freedom.", "all data without perfect fit", "Comparison of maxima over continua.", "spreg/sur_error.py:SURerrorML")
p("SUR does not depend on units", "Multiplying the dependent variable of each equation by a non-zero constant multiplies its coefficients and residuals by it and covariances by the product of the constants, leaves the number of iterations, t statistics and tests unchanged, and shifts the log-likelihood by the Jacobian.", "all data and constants, two-step and iterated", "All data; equality of whole runs of the iteration.", "spreg/sur.py:BaseSUR", "spreg/diagnostics_sur.py:sur_lrtest", "spreg/diagnostics_sur.py:sur_lmtest")
p("SURerrorML does not depend on units", "SURerrorML fits a data set in one unit of measurement of the dependent variables if and only if it does in any other, with the same lambdas and tests.", "all data and constants", "All data; equality of whole runs of the loop.", "spreg/sur_error.py:BaseSURerrorML")
p("ML standard errors are those of the Fisher information",
  "For the spatial lag and spatial error models, the matrix whose inverse gives the reported covariance of the estimates is the expected second derivative (with minus sign) of the Gaussian log-likelihood of that model at the estimates, in every direction of the parameter space; for ML_Error the reported block is the block of the inverse of the full information matrix.",
  "every data set, weights matrix with zero diagonal, parameter value with I - rho W nonsingular, positive variance, direction, error distribution with the model's mean and covariance","an identity of expectations and derivatives over all parameters","spreg/ml_lag.py:BaseML_Lag","spreg/ml_error.py:BaseML_Error")
p("SURerrorML standard errors are those of the Fisher information",
  "The covariance matrix reported for the spatial parameters and the error variances of SURerrorML is the inverse of the expected information of the Gaussian SUR model with spatial errors, it is symmetric and positive definite, and there are no cross terms with the coefficients, whose information is the inverse of varb.",
  "every number of equations, regressors, weights, spatial parameters with I - lam W nonsingular, positive definite Sigma, direction","n_eq(n_eq+3)/2 parameters, products of traces","spreg/sur_error.py:surerrvm","spreg/sur_error.py:SURerrorML")
p("Chow statistics are zero exactly when the named coefficients agree",
  "Each Chow statistic is nonnegative and zero exactly when the coefficient of its variable is the same in all regimes (the joint one when all are), it is always computed when the covariance matrix is positive definite, spatial parameters that have no variance are left out whether they end the vector or each regime's block, and this holds for every class that runs the test.",
  "every number of regimes, variables, coefficients, covariance matrix","all layouts of coefficients","spreg/regimes.py:_chow_run","spreg/regimes.py:buildR1var","spreg/sur.py:ThreeSLS","spreg/sur_lag.py:SURlagIV")
p("Tests across equations test what they name",
  "The test of constancy of a coefficient across equations is zero exactly when the coefficient is the same in all equations; the joint test on the spatial lag coefficients is zero exactly when all of them are zero; the tests on the spatial error parameters are zero exactly when they are all equal, respectively all zero.",
  "every number of equations, coefficients, covariance matrix","index arithmetic over stacked coefficients","spreg/diagnostics_sur.py:sur_chow","spreg/diagnostics_sur.py:sur_joinrho","spreg/sur_error.py:SURerrorML","spreg/sur_lag.py:SURlagIV")
p("Names of models estimated regime by regime",
  "When each regime is estimated separately name_y lists one name per regime and name_x one name per coefficient, regime by regime.",
  "every list of regimes and names","lists built in a loop over regimes","spreg/ols_regimes.py:OLS_Regimes_Multi","spreg/ml_lag_regimes.py:ML_Lag_Regimes_Multi","spreg/twosls_regimes.py:TSLS_Regimes_Multi")
p("Standard errors of fixed effects panel models are those of the Fisher information",
  "For ML_LagFE and ML_ErrorFE the matrix whose inverse gives the reported covariance matrix is, in every direction of the reported parameters, the information that the Gaussian panel model with individual effects leaves when the effects are unknown: the least expected information over all directions of the effects.",
  "every panel, weights matrix with zero diagonal, parameter value with I - rho W nonsingular, positive variance, individual effects, direction, error distribution","an identity of expectations, derivatives and projections","spreg/panel.py:BaseML_LagFE","spreg/panel.py:BaseML_ErrorFE")
p("Standard errors of the random effects lag model are those of the Fisher information",
  "The information matrix of ML_LagRE about the coefficients, rho, phi and the variance is the expected information of the Gaussian random effects lag model.",
  "every panel, weights matrix, parameter value, direction","an identity of expectations and derivatives","spreg/panel.py:BaseML_LagRE","spreg/panel_re.py:BasePanel_RE_Lag")
p("Standard errors of the random effects error model are those of the Fisher information",
  "The information matrix of ML_ErrorRE about lambda, the variance of the individual effects and the variance is the expected information of the Gaussian random effects error model at the estimates.",
  "every panel, weights matrix, parameter value, direction","an identity of expectations and derivatives","spreg/panel.py:BaseML_ErrorRE","spreg/panel_re.py:BasePanel_RE_Error")
p("The coefficient table pairs names with their results",
  "In reg.output every variable name stands beside the coefficient, standard error, statistic and probability of that variable, in its own regime and equation, sorted by equation and regime, with no row lost; numbers of names and coefficients that differ raise an exception instead of a shifted table.",
  "every list of variables, regimes, equations and results, and every order a sort may leave","the sorts and index alignments of data frames over all sizes","spreg/output.py:output","spreg/ols_regimes.py:OLS_Regimes","spreg/twosls_regimes.py:TSLS_Regimes")
p("The Chow table names the variable that each statistic tests",
  "The Chow table has one row per tested coefficient, and the name in a row is the name of the variable whose coefficients over regimes that statistic compares.",
  "every cols2regi, constant_regi, number of regimes, list of names","masks of every length","spreg/output.py:_summary_chow","spreg/output.py:output_chow","spreg/ml_error_regimes.py:ML_Error_Regimes")
p("Spatial lag models with regimes accept cols2regi lists",
  "GM_Lag_Regimes and ML_Lag_Regimes accept 'all' and every list with one flag per variable, keep its flags and hold the spatial lag of y fixed; other lists raise an exception.",
  "every list, number of variables, lags","lists of every length","spreg/twosls_sp_regimes.py:GM_Lag_Regimes","spreg/ml_lag_regimes.py:ML_Lag_Regimes","spreg/regimes.py:check_cols2regi")
p("Spatially lagged regressors are labelled as such",
  "In the coefficient table of a spatial Durbin model with regimes exactly the rows of the spatially lagged regressors have type wx.",
  "every number of regimes, regressors, lags, set of lagged variables, cols2regi","index arithmetic over blocks","spreg/twosls_sp_regimes.py:GM_Lag_Regimes","spreg/ml_lag_regimes.py:ML_Lag_Regimes")
p("Impacts of a spatial Durbin model with regimes use the coefficients of their own variable",
  "The total impact reported for a variable in a regime is the multiplier times the sum of its coefficient and the coefficients of its own spatial lags in that regime.",
  "every number of regimes, regressors, lags, set of lagged variables, cols2regi, coefficients","index arithmetic over blocks","spreg/sputils.py:_sp_effects","spreg/output.py:_summary_impacts")
p("One model per regime: the joint output is the block assembly of the regime outputs",
  "With one model per regime the coefficients are the regimes' coefficients stacked in the order of the regimes, the covariance matrix has the regimes' covariance matrices on the diagonal and zeros elsewhere, residuals and predictions return to the rows of the observations; the Chow test of a variable is zero exactly if the regimes' own coefficients agree.",
  "every number of regimes, sizes, class, results per regime","assembly by index arithmetic for every number of regimes","spreg/ols_regimes.py:OLS_Regimes._ols_regimes_multi","spreg/twosls_regimes.py:TSLS_Regimes._tsls_regimes_multi","spreg/error_sp_regimes.py:GM_Error_Regimes._error_regimes_multi","spreg/ml_lag_regimes.py:ML_Lag_Regimes.ML_Lag_Regimes_Multi")
p("A variable that is constant in one regime is dropped in that regime",
  "With one model per regime a variable that does not vary within a regime is left out of that regime's model, and the joint output is assembled from the remaining coefficients.",
  "every class with regimes, number of regimes, pattern of dropped variables","patterns of dropped variables are unbounded","spreg/ols_regimes.py:_work","spreg/error_sp_regimes.py:_work_error","spreg/ml_error_regimes.py:ML_Error_Regimes.ML_Error_Regimes_Multi","spreg/user_output.py:check_constant")
p("C(..., regimes=r, ...) is C_Regimes(..., r, ...)",
  "Giving regimes to OLS, TSLS, GM_Lag, ML_Lag, ML_Error or GMM_Error estimates the class with regimes with all the arguments given, and with the defaults of that class.",
  "every list of keyword arguments","combinations of optional arguments","spreg/ols.py:OLS.__init__","spreg/twosls.py:TSLS.__init__","spreg/twosls_sp.py:GM_Lag.__init__","spreg/ml_lag.py:ML_Lag.__init__","spreg/ml_error.py:ML_Error.__init__","spreg/error_sp.py:GMM_Error.__init__")
p("An unknown keyword argument raises TypeError",
  "A keyword argument that no class involved knows raises TypeError.",
  "every keyword, every list of arguments, every class","every possible misspelling","spreg/ols.py:OLS.__init__","spreg/twosls.py:TSLS.__init__","spreg/twosls_sp.py:GM_Lag.__init__","spreg/ml_lag.py:ML_Lag.__init__","spreg/ml_error.py:ML_Error.__init__","spreg/error_sp.py:GMM_Error.__init__")
p("GMM_Error estimates the model asked for",
  "GMM_Error and GMM_Error_Regimes initialise the class given by estimator, add_wy and the presence of endogenous variables, with all the arguments given, and refuse an unknown estimator.",
  "every list of keyword arguments","combinations of optional arguments","spreg/error_sp.py:GMM_Error.__init__","spreg/error_sp_regimes.py:GMM_Error_Regimes.__init__")
p("2SLS and GM_Lag do not depend on order, units or basis",
  "If the observations (with their weights) are reordered, the exogenous regressors are replaced by an invertible set of linear combinations of them, likewise the instruments, the dependent variable is measured in other units and (TSLS) a combination of regressors is added to it, then TSLS and GM_Lag return the correspondingly transformed coefficients, fitted values, residuals and covariance matrix, the spatial parameter of GM_Lag unchanged, or raise the same exception.",
  "all data, weights, permutations, invertible transformations, units and shifts", "Tests use one ordering, one unit and one basis of a few data sets.",
  "spreg/twosls.py:BaseTSLS", "spreg/twosls_sp.py:BaseGM_Lag")
p("GM spatial error models do not depend on order, units or basis",
  "Under the same changes of the data GM_Error, GM_Endog_Error, GM_Combo and their Hom and Het versions return the same lambda (and rho), the same number of iterations and stopping message, and transformed coefficients, residuals, filtered residuals and covariance matrices, or raise the same exception - provided the optimiser's answer does not depend on the units of the moments.",
  "all data, weights, permutations, invertible transformations, units, shifts, iteration limits, tolerances and optimisers", "Iterated estimators with matrix-valued weights; tests compare a few numbers for one data set.",
  "spreg/error_sp.py:BaseGM_Error", "spreg/error_sp.py:BaseGM_Endog_Error", "spreg/error_sp_hom.py:BaseGM_Endog_Error_Hom", "spreg/error_sp_het.py:BaseGM_Endog_Error_Het")
p("The GM optimisation weights by the inverse variance and is free of units",
  "With a weighting matrix the GM criterion that is minimised is a positive multiple of (g - G p)' V^-1 (g - G p) in the unweighted moments; for a positive semidefinite V this fails only if V is singular and not zero; with two moment equations the answer (or exception) is exactly the same in other units of the dependent variable; with three equations the minimisers are the same with the error variance in the new units; with hard_bound the answer is inside (-0.99, 0.99).",
  "all moments, weighting matrices, units and optimisers", "The optimiser is a numerical routine; scale and factor interact with its start value.",
  "spreg/utils.py:optim_moments", "spreg/utils.py:foptim_par")
p("GM_Endog_Error and GM_Combo satisfy their first-order conditions",
  "y = predy + u with predy = z betas; e_filtered is u - lambda W u; the first-stage fitted values of the filtered regressors are orthogonal to e_filtered; sig2 is its mean square; the covariance matrix is symmetric positive semidefinite; lambda is the optimiser's answer for the moments of the first-step 2SLS residuals.",
  "all data, weights, instruments and optimisers", "Tests compare the numbers of two or three data sets.",
  "spreg/error_sp.py:BaseGM_Endog_Error", "spreg/error_sp.py:BaseGM_Combo")
p("A joint GM error model with regimes is the GM error model with the regime design",
  "With regime_err_sep=False the GM spatial error models with regimes estimate the same model as their plain versions applied to the regime-expanded regressors; in particular adding a combination of the (expanded) regressors to y shifts the coefficients by that combination and leaves lambda alone.",
  "every data set, weights matrix, regime labelling, choice of varying variables and optimiser",
  "depends on the links between regimes in W", "spreg/error_sp_regimes.py:GM_Error_Regimes", "spreg/error_sp_regimes.py:GM_Endog_Error_Regimes", "spreg/error_sp_het_regimes.py:GM_Error_Het_Regimes", "spreg/error_sp_hom_regimes.py:GM_Error_Hom_Regimes", "spreg/error_sp_hom_regimes.py:GM_Endog_Error_Hom_Regimes")
p("Iterating a GM error model with regimes re-estimates the coefficients",
  "In the iterated GM models with regimes (max_iter > 1) every pass estimates the coefficients on data filtered with the lambda of the previous pass, as in the models without regimes.",
  "every number of passes, tolerance, data set and optimiser",
  "a default run makes one pass", "spreg/error_sp_het_regimes.py:GM_Error_Het_Regimes", "spreg/error_sp_het_regimes.py:GM_Endog_Error_Het_Regimes", "spreg/error_sp_hom_regimes.py:GM_Error_Hom_Regimes", "spreg/error_sp_hom_regimes.py:GM_Endog_Error_Hom_Regimes")
p("Weights by regime keep exactly the links within regimes, and their weights",
  "Where a model uses one weights matrix per regime (regime_err_sep or regime_lag_sep), every observation keeps exactly its neighbours of the same regime, with the given weights standardised in the same way; a warning appears exactly when an observation loses all its neighbours, and an exception exactly when a regime is too small. The matrices by regime and their union give the same lags.",
  "every weights object, transformation, regime labelling and minimum size",
  "the tests use binary contiguity weights; general weights, islands and any number of regimes are needed",
  "spreg/regimes.py:w_regime", "spreg/regimes.py:w_regimes", "spreg/regimes.py:w_regimes_union")
p("One spatial coefficient per regime is one spatial lag model per regime",
  "GM_Lag_Regimes with regime_lag_sep=True and regime_err_sep=False, everything varying, gives the coefficients, predictions, residuals and White variances of GM_Lag run on each regime alone with the weights of that regime, and fails exactly when one of these fails.",
  "every data set, number of regimes, weights, order of the instruments, lag_q and number of endogenous variables",
  "an algebraic identity over all designs", "spreg/twosls_sp_regimes.py:GM_Lag_Regimes", "spreg/twosls_regimes.py:TSLS_Regimes", "spreg/utils.py:set_endog")
p("The deprecated GM_KKP and its successor GM_ErrorRE agree",
  "On the same panel GM_KKP and GM_ErrorRE return the same coefficients, variance components, predictions, residuals and variances for every weighting and fail on the same data; wide data are stacked the same way, regimes given per unit are repeated over the periods, and the reported n is the number of observations.",
  "every panel (units, periods, regressors, weights), weighting option and optimiser",
  "an identity between two code paths over all panels", "spreg/sp_panels.py:GM_KKP", "spreg/panel.py:GM_ErrorRE", "spreg/sp_panels.py:_moments_kkp")
p("Maximum likelihood estimates do not depend on order, units or basis",
  "ML_Lag and ML_Error on observations listed in another order, y in other units, other combinations of the regressors (for ML_Error also with a combination of them added to y) maximise the same function of rho or lambda up to a constant and return the same estimates, residuals, predictions, variances and covariance matrix in the new order, units and basis; whether the model can be estimated does not depend on them.",
  "every data set, weights, permutation, nonzero unit, invertible basis change, and every rho or lambda found",
  "an equivariance over all data sets and transformations", "spreg/ml_lag.py:BaseML_Lag", "spreg/ml_error.py:BaseML_Error", "spreg/utils.py:inverse_prod")
p("Spatial diagnostics do not depend on order, units, basis or origin",
  "LMtests and MoranRes of a regression give the same LM error, LM lag, robust, SARMA, WX, Durbin statistics and the same Moran's I, mean and variance when observations are listed in another order (with the weights), y is expressed in other units, regressors are expressed in other units and, with a constant and weights whose rows sum to one, when variables are measured from another origin; the error tests and AKtest are unchanged under any invertible change of basis of the regressors (instruments) and when a combination of regressors is added to y.",
  "every data set for which the regression exists, every weights matrix, permutation, unit, basis and origin",
  "an invariance over all data sets and transformations", "spreg/diagnostics_sp.py:LMtests", "spreg/diagnostics_sp.py:MoranRes", "spreg/diagnostics_sp.py:AKtest", "spreg/diagnostics_sp.py:lm_spdurbin")
p("Deprecated panel classes and their successors agree",
  "On the same data, weights and parameter values Panel_FE_Lag and ML_LagFE, Panel_FE_Error and ML_ErrorFE, Panel_RE_Lag and ML_LagRE, Panel_RE_Error and ML_ErrorRE optimise the same function up to a constant and return the same coefficients, variances, residuals, predictions and log-likelihood.",
  "every panel (units, periods, regressors), weights matrix and value of the parameters",
  "an identity between code paths over all panels", "spreg/panel_fe.py:BasePanel_FE_Lag", "spreg/panel_fe.py:BasePanel_FE_Error", "spreg/panel_re.py:BasePanel_RE_Lag", "spreg/panel_re.py:BasePanel_RE_Error", "spreg/panel.py:BaseML_ErrorRE")
p("Rows of the coefficient table",
  "In the coefficient table of an estimator without regimes (single-equation and panel) every row shows name, type and estimate of one and the same term, in the order constant, exogenous variables, their spatial lags W_x, W2_x, ... (of the variables selected by slx_vars), endogenous variables, W_y, parameters of the error process; the type tells constant, regressor, lagged regressor, endogenous variable, spatial lag coefficient and error parameter apart.",
  "every number of variables, names, slx_lags, slx_vars of the right length, other endogenous variables, w_lags, lag_q",
  "A test inspects the table of one specification; labels and coefficients are built by separate code paths whose agreement for every number of lags and every mask no finite sample settles.",
  "spreg/ml_lag.py: ML_Lag", "spreg/twosls_sp.py: GM_Lag", "spreg/error_sp.py: GM_Error, GM_Endog_Error, GM_Combo", "spreg/error_sp_hom.py: GM_Error_Hom", "spreg/panel.py: ML_ErrorFE, ML_LagFE, ML_LagRE", "spreg/panel_utils.py: prepare_panel", "spreg/output.py: out_part_middle")
p("Regimes options honoured or announced",
  "The options regime_err_sep, regime_lag_sep, cols2regi and constant_regi of a regimes class are either honoured (error variance by regime exactly if asked for, coefficients varying exactly for the flagged columns, lag coefficient and lag weights by regime exactly if asked for), or the call raises, or a warning names the option that was changed; and no warning says something that is not so.",
  "every combination of the options, number of regressors, of endogenous variables, slx_lags, robust setting, flag list",
  "The options interact (2 to the number of columns times the switches); a test exercises a handful of combinations, and silence about a dropped option does not fail it.",
  "spreg/ols_regimes.py: OLS_Regimes", "spreg/twosls_regimes.py: TSLS_Regimes", "spreg/twosls_sp_regimes.py: GM_Lag_Regimes", "spreg/error_sp_regimes.py: GM_Error_Regimes, GM_Endog_Error_Regimes, GM_Combo_Regimes", "spreg/ml_lag_regimes.py: ML_Lag_Regimes", "spreg/ml_error_regimes.py: ML_Error_Regimes")
p("Optimal-weighted GMM",
  "With robust='ogmm' the coefficients are the only minimum of the GMM criterion weighted by the inverse of White's moment variance at the two-stage residuals; vm is the efficient GMM variance, symmetric positive semidefinite and never larger (as a matrix) than the White variance of two-stage least squares or of any other estimator linear in the moments; with as many instruments as regressors the result is that of two-stage least squares with White standard errors; sig2n_k makes no difference; order of observations, units and basis change the results accordingly; estimating regimes jointly or separately gives the same when all coefficients vary.",
  "all data, number of regressors and instruments, regimes, units, bases, orders",
  "Optimality and invariance are statements about every alternative coefficient vector, estimator and transformation.",
  "spreg/twosls_regimes.py: _optimal_weight, TSLS_Regimes", "spreg/twosls_sp_regimes.py: GM_Lag_Regimes")
p("Residual statistics are those of the reported residuals",
  "utu, sig2n, sig2n_k and sig2 of an estimation object are the sum of squares of its attribute u and the quotients of that sum, in whatever order attributes are read.",
  "all data, classes, robust settings, histories of attribute reads",
  "The attributes are lazily cached, so that the value depends on the history of reads and assignments inside the constructors.",
  "spreg/utils.py: RegressionPropsY, RegressionPropsVM, RegressionProps_basic", "spreg/ols.py: BaseOLS", "spreg/twosls.py: BaseTSLS", "spreg/ols_regimes.py: OLS_Regimes", "spreg/twosls_regimes.py: _optimal_weight")
p("Endogenous regimes: clusters are an admissible partition and everything reported belongs to it",
  "OLS_Endog_Regimes, TSLS_Endog_Regimes and GM_Lag_Endog_Regimes return, for every number of clusters the quorum allows (given or chosen automatically), clusters that are connected, at least as large as the quorum and numbered without gaps; score and SSR are those of the reported clusters, the coefficients are those of the regimes model for these clusters estimated with the weights the caller passed, and every documented option (trace, n_clusters=None) works.",
  "every data set, connected graph, score function, quorum, number of clusters, weights transform",
  "the outcome depends on the whole history of cuts and on an index into its trace",
  "spreg/ols_regimes.py:OLS_Endog_Regimes","spreg/twosls_regimes.py:TSLS_Endog_Regimes","spreg/twosls_sp_regimes.py:GM_Lag_Endog_Regimes","spreg/skater_reg.py:Skater_reg.fit","spreg/skater_reg.py:Skater_reg._prep_lag","spreg/utils.py:optim_k")
p("A Durbin model with regimes pairs every variable with its own lag",
  "In a spatial Durbin model with regimes estimated in one equation (GM_Lag_Regimes or ML_Lag_Regimes with slx_lags), the common factor test compares the coefficient of every variable in every regime with the coefficient of the lag of that same variable in that same regime, each pair once, and the impacts give one line per variable and regime, whose direct effect uses the coefficient of the variable and whose total effect adds the coefficients of its own lags in that regime.",
  "every number of regimes, variables and orders of the lag, every set of names of regimes, with or without a constant common to the regimes, every choice of varying columns and of lagged variables, all coefficient values",
  "the coefficients are found through a table of types filled by counting rows from the end; tests use one layout and compare numbers, a count that is off by one for another layout gives plausible numbers of the wrong coefficients",
  "spreg/output.py:_spat_diag_out", "spreg/output.py:_summary_impacts", "spreg/sputils.py:_sp_effects", "spreg/twosls_sp_regimes.py:GM_Lag_Regimes", "spreg/ml_lag_regimes.py:ML_Lag_Regimes")
p("Regimes results do not depend on observation order nor on regime names",
  "For a pooled (one equation) OLS or 2SLS model with regimes, permuting the observations and renaming the regimes injectively (even if the new names sort in another order, so that another regime becomes the reference of the Chow tests) leaves unchanged: the residual and the predicted value of every observation, the coefficient of every variable in every regime, every variance and covariance of coefficients (classical, White, HAC), the error variance, all single and joint Chow statistics (for 2SLS: of models in which every variable varies; C63 treats the others), and the raising of exceptions.",
  "all data, all choices of varying variables, all permutations of the observations, all injective renamings, all robust options",
  "Concerns all permutations and renamings of all data sets; tests use one data set with one coding of the regimes.",
  "spreg/ols_regimes.py:OLS_Regimes", "spreg/twosls_regimes.py:TSLS_Regimes", "spreg/regimes.py:Regimes_Frame", "spreg/regimes.py:_get_regimes_set", "spreg/regimes.py:_chow_run", "spreg/regimes.py:_get_weighted_var")
p("Spatial models with regimes estimated jointly do not depend on row order, regime names or units",
"Reorder the observations (rows of y, x, yend, q, regimes and of the weights together), rename the regimes, multiply y by a number b and each regressor and instrument by its own nonzero number: GM_Error_Regimes, GM_Endog_Error_Regimes, GM_Combo_Regimes, their Het and Hom versions, GM_Lag_Regimes and TSLS_Regimes, ML_Error_Regimes and (with b = 1) ML_Lag_Regimes, with regime_err_sep=False, return the same spatial parameter, iteration count and stopping message, coefficients that are the old ones in the new units and under the new names of their regimes, residuals and predictions in the new order and units, and the corresponding covariance matrix; or raise the same exception.",
"all weights, regressors, instruments, regime assignments, all permutations of the observations and of the regimes, all nonzero units, all optimisers that do not depend on units (for b = 1 or -1 every optimiser), all max_iter and epsilon",
"The statement compares two runs on related data for every permutation, renaming and unit; a test checks a handful of them.",
"spreg/error_sp_regimes.py: GM_Error_Regimes, GM_Endog_Error_Regimes, GM_Combo_Regimes", "spreg/error_sp_het_regimes.py: GM_Error_Het_Regimes, GM_Endog_Error_Het_Regimes", "spreg/error_sp_hom_regimes.py: GM_Error_Hom_Regimes, GM_Endog_Error_Hom_Regimes", "spreg/twosls_sp_regimes.py: GM_Lag_Regimes", "spreg/ml_lag_regimes.py: ML_Lag_Regimes", "spreg/ml_error_regimes.py: ML_Error_Regimes", "spreg/regimes.py: regimeX_setup")
p("Spatial diagnostics of regimes regressions have the degrees of freedom of what they test",
"The spatial diagnostics of OLS and OLS_Regimes are those of the reported regression: the statistics are computed from the reported residuals and the design actually used, the tests for spatially lagged regressors have one degree of freedom per lagged regressor (one more for the joint tests with the lag or the error), the printed degrees of freedom are those of the p-value, and Moran's I is standardised with the Cliff-Ord moments of that design.",
"all data, weights, regime assignments, numbers of regimes and variables, all choices of varying coefficients and constants, both ways of estimating (one equation, one regression per regime)",
"The degrees of freedom are a function of the numbers of regimes and variables; p-values in unit tests are copied from the program's own output.",
"spreg/diagnostics_sp.py: lm_wx, lm_spdurbin, rlm_wx, lm_slxerr, get_eI, get_vI", "spreg/output.py: _spat_diag_out", "spreg/ols_regimes.py: OLS_Regimes, _get_spat_diag_props")
p("Probit results do not depend on order, units, origins or coding of the outcome",
"Probit with optim='newton': reorder the observations, measure regressor j as a_j + c_j x with c_j not zero: the run ends the same way (same exception, or same convergence flag), log-likelihood, predicted probabilities, classification, residuals, likelihood-ratio test, McFadden rho and spatial tests (weights reordered alike) are the same, slopes and average partial effects are divided by c_j, their standard errors by |c_j|. Coding the other outcome as 1 (and negating the starting values) reverses the sign of coefficients and residuals, keeps variances and likelihood and gives the complementary probabilities.",
"all regressors, binary or other y, all permutations, all a and all nonzero c, default or given starting values, all maxiter, both scales of the partial effects",
"The statement is about the whole path of Newton's method on two related data sets for every change of units; a test compares one run with stored numbers.",
"spreg/probit.py: BaseProbit, Probit, newton", "spreg/diagnostics_probit.py: probit_ape, sp_tests, pred_table, probit_lrtest, mcfad_rho")
p("SUR models do not depend on how the data are presented",
  "SUR, three-stage least squares, SURerrorGM and SURerrorML give the same results when the observations (with the weights), the equations or the columns of an equation are given in another order, or the regressors (instruments) of an equation are measured in other units or replaced by an equivalent set: they fail or succeed alike, take as many iterations, and report the same fitted values, residuals, covariance between equations, log-likelihoods, LR, Breusch-Pagan and LM tests; coefficients and their covariances are those of the new columns.",
  "all numbers of equations, observations and regressors per equation, all data, all orders of observations and equations, all invertible changes of columns in each equation, iterated or two-step",
  "an invariance over all orders and units of all data sets, including through the iterations",
  "spreg/sur.py:BaseSUR","spreg/sur.py:BaseThreeSLS","spreg/sur_error.py:BaseSURerrorGM","spreg/sur_error.py:BaseSURerrorML","spreg/diagnostics_sur.py:surLMe","spreg/diagnostics_sur.py:surLMlag","spreg/sur_utils.py:sur_est")
p("HAC standard errors with regimes are those of the separate regressions",
"With robust='hac' a regimes regression whose coefficients all vary (OLS_Regimes, TSLS_Regimes, GM_Lag_Regimes with regime_lag_sep=True) reports, for every regime, exactly the HAC variance matrix of the regression of that regime on its own observations with the kernel weights among them; the covariances between coefficients of two regimes come only from kernel weights between their observations and are zero if the kernel links no two regimes.",
"all data, partitions into regimes, kernel weights and (for lag models) spatial weights for which the separate regressions can be computed",
"a test fixes one data set and one kernel and compares numbers with a previous run; the identity must hold for every partition and kernel",
"spreg/robust.py: robust_vm", "spreg/ols_regimes.py: OLS_Regimes", "spreg/twosls_regimes.py: TSLS_Regimes", "spreg/twosls_sp_regimes.py: GM_Lag_Regimes")
p("With hard_bound=True no model with an out-of-bounds spatial coefficient is returned",
"For every class with the option hard_bound: if the constructor returns with hard_bound=True then every spatial parameter of the result is inside the bounds (|lambda| < 0.99 for the error, |rho| < 1 for the lag) and the result is the one obtained without the option; without the option an out-of-bounds rho is always accompanied by a warning and predictions of zero. (The combo models without heteroskedasticity and GM_Lag_Regimes with HAC do not honour the option for rho.)",
"all data, weights, instruments, numbers of lags and of iterations, every optimiser, both settings of the option",
"out-of-bounds estimates occur only for particular data; a test sees a few data sets, and none of the repository's tests uses hard_bound=True with an out-of-bounds rho",
"spreg/utils.py: optim_moments, sp_att", "spreg/error_sp.py: GM_Error, GM_Endog_Error, GM_Combo", "spreg/error_sp_het.py: BaseGM_Error_Het, BaseGM_Endog_Error_Het, GM_Combo_Het", "spreg/error_sp_hom.py: GM_Combo_Hom", "spreg/twosls_sp.py: GM_Lag", "spreg/twosls_sp_regimes.py: sp_att_reg", "spreg/error_sp_het_regimes.py", "spreg/error_sp_hom_regimes.py")
p("Generated errors and regressors have the requested means and variances",
"make_error and make_x return independent numbers whose means and variances (and, for bivnormal, correlation) are the arguments mu, varu and cor; a negative variance raises ValueError. make_heterror multiplies the variance of every error by its multiplier and keeps mean zero. (Not so for the uniform distribution, the default of make_x, which ignores mu: its mean is the square root of three times the variance; and not for lognormal errors, whose mean always exceeds mu.)",
"all sample sizes, means, non-negative variances and correlations, every supported distribution",
"means and variances are properties of the distribution over all draws; a test sees one draw for one seed",
"spreg/dgp.py: make_error, make_x")
p("The reported log-likelihood is the log density of the data under the generating process with the estimated parameters",
"For OLS, ML_Lag (method full) and ML_Error (method full): logll (for OLS the value that logll, aic and schwarz are computed from) is the logarithm of the probability density, at the observed y, of what dgp_ols, dgp_lag and dgp_sperror return for the reported coefficients and independent normal errors with the reported variance sig2n. Including all constants and the Jacobian; so exponentials of reported values can be compared between the models.",
"all data and weights with zero diagonal for which the model can be estimated with non-zero residuals, every value of the spatial coefficient returned by the optimiser with a positive determinant of I - rho W",
"a density is defined by the probabilities of all measurable sets of outcomes; the tests compare logll with stored numbers",
"spreg/ml_lag.py: BaseML_Lag", "spreg/ml_error.py: BaseML_Error", "spreg/diagnostics.py: log_likelihood", "spreg/dgp.py: dgp_ols, dgp_lag, dgp_sperror, make_error")
p("OLS estimates are right on average",
"For y = X b + e with uncorrelated errors of mean zero and equal variance s: the coefficients of OLS average to b, its sig2 (sig2n_k=True) to s, and its classical variance matrix to the covariance matrix of the coefficients; with sig2n_k=False sig2 averages to s(n-k)/n. In particular for data made by make_error and dgp_ols. PanelFE: coefficients and fixed effects average to the true ones. (Its sig2 and variances do not: they are too small on average by a known factor because the regressors are not counted as degrees of freedom.)",
"all error distributions with these moments, all designs with full column rank and fewer columns than rows, all coefficients; for PanelFE all panels",
"expectations over all realisations of the errors, for every distribution; a test sees one sample",
"spreg/ols.py: BaseOLS, OLS", "spreg/utils.py: RegressionPropsY, RegressionPropsVM", "spreg/dgp.py: make_error, dgp_ols", "spreg/panel.py: PanelFE")
p("The true parameters solve the moment equations of the GMM estimators on average",
"If the disturbances follow u = lambda W u + e, then the expected values of the moment vector and matrix from which lambda is estimated satisfy g = G (lambda, lambda^2, ...) exactly in every sample size: for GM_Error, GM_Endog_Error and GM_Combo with errors of equal variance s and (lambda, lambda^2, s); for the Het classes with errors of any different variances and (lambda, lambda^2); for the Hom classes with equal variances, for each of the three choices of A1; for GM_ErrorRE and GM_KKP with random effects, for the three moments of the first and the six of the second stage, with (lambda, lambda^2, s_nu, s_nu + T s_mu). The process is the one of dgp_errproc(model='sar').",
"all sample sizes, weights with zero diagonal, lambda for which I - lambda W is invertible, and error distributions with these second moments",
"expectations over all realisations of the errors, for every distribution; a test sees one sample",
"spreg/utils.py: _moments2eqs, get_lags", "spreg/error_sp.py: _momentsGM_Error", "spreg/error_sp_het.py", "spreg/error_sp_hom.py: moments_hom, get_A1_hom", "spreg/panel_re.py", "spreg/panel.py: _moments_kkp", "spreg/sp_panels.py: _moments_kkp", "spreg/dgp.py: dgp_errproc")
p("The reported mean and variance of Moran's I of the residuals are its exact mean and variance",
"For y = X b + e with errors whose distribution does not change under rotations (in particular independent normal errors of equal variance, as made by make_error and dgp_ols), over all samples the Moran's I that OLS reports for its residuals has exactly the mean and the variance that it is standardised with, in every sample size, so the reported z value has mean zero and variance one; the same for the pooled regression of OLS_Regimes.",
"all sample sizes, designs with full column rank and fewer columns than rows, coefficients, weights with zero diagonal, error variances and rotation-invariant error distributions",
"mean and variance over all samples; a test sees one sample and compares with stored numbers",
"spreg/diagnostics_sp.py: MoranRes, get_mI, get_eI, get_vI, get_zI", "spreg/ols.py: OLS", "spreg/ols_regimes.py: OLS_Regimes")
p("SURlagIV estimates the spatial lag model of every equation and names it truthfully, call after call",
  "SURlagIV with dictionaries and no regimes raises exactly when w_lags < 1 or endogenous variables come without instruments. Otherwise equation r has the regressors given, the endogenous variables given plus W y_r (last), and as instruments those given, then the lags of orders 1..w_lags of the regressors without the constant, then with lag_q the lags of the given instruments. The reported names describe these columns position by position (W_x, WW_x, ...). The first-stage coefficients and residuals of each equation are those GM_Lag (2SLS) gives for this equation alone. Names passed for endogenous variables and instruments are the ones reported, and repeating the call with the same objects gives the same result.",
  "all numbers of equations, variables, regions, lag orders >= 0, both values of lag_q, all weights (any map of columns)", "the property compares two classes for all data and describes the state of the caller's objects after any call", "spreg/sur_lag.py:SURlagIV.__init__", "spreg/sur_lag.py:_get_spatial_lag", "spreg/sur.py:BaseThreeSLS", "spreg/utils.py:set_endog")
p("Data named by columns of a table are the data of the equations",
  "SUR, SURerrorGM and SURerrorML called with lists of column names and a data frame behave as with dictionaries holding, for equation r, the column named r-th as dependent variable and a column of ones followed by the columns listed r-th, in that order, named Constant_r and by their column names. With two or more equations this succeeds exactly when all names are columns, there are as many lists as dependent variables and no list is empty; mixed arguments, or names without a data frame, are refused. The layout with one row per unit and period (space_id and time_id) gives one equation per period.",
  "all tables, lists of names and numbers of equations", "tests read one table in one layout; the layout that always fails is not tested", "spreg/sur_utils.py:sur_dictxy", "spreg/sur.py:SUR.__init__", "spreg/sur_error.py")
p("The coefficient tables of the SUR classes print every coefficient once, under its own name",
  "The printed tables of SUR, SURerrorGM, SURerrorML, ThreeSLS and SURlagIV list, equation by equation and within an equation regime by regime, every coefficient exactly once, with the name, estimate, standard error, statistic and p-value at the same position of the reported arrays; a common spatial parameter and lambda come last. The cutting of the lists uses divisions in double precision and must not depend on their rounding. The table of tests of equal coefficients across equations has one row per coefficient, and each row names the coefficient whose test it shows. Printing never fails on a model that was estimated.",
  "all numbers of equations, regimes and coefficients (below 2^50), every rounding of the divisions that is monotone, exact on integers and within half an ulp", "rounding of one division can move a cut for one size in many; the sizes at which printing fails are not in the tests", "spreg/summary_output.py:summary_coefs_sur", "spreg/summary_output.py:summary_diag_sur", "spreg/sur.py:ThreeSLS", "spreg/sur_lag.py:SURlagIV")
p("Least squares and generalised least squares are best linear unbiased",
  "In y = x beta + v with x fixed, every linear combination of the coefficients reported by OLS (uncorrelated errors with equal variances), by WLS (variances inversely proportional to the weights), by GM_Error when its lambda is the true one (v = lambda W v + e), by the last step of GM_ErrorRE at the true parameters (unit effects plus errors, spatially filtered) and by the SUR estimator with the true covariance of the equations up to a factor is a linear function of y that is right on average for every beta; no linear estimator that is right on average for every beta has a smaller mean squared error at any beta, and one with the same mean squared error is the same function of y.",
  "all sizes, regressors, weights, true parameters, distributions of the errors with the stated second moments, and all competing linear estimators", "quantifies over all distributions and all competing estimators", "spreg/ols.py:BaseOLS", "spreg/ols.py:BaseWLS", "spreg/error_sp.py:BaseGM_Error", "spreg/panel.py:BaseGM_ErrorRE", "spreg/sur_utils.py:sur_est")
p("t and F tests of OLS have exactly their nominal size under normal errors",
"If y is generated with independent normal errors of equal variance, each OLS coefficient minus its true value, divided by its reported standard error, has exactly Student's distribution with n-k degrees of freedom; the reported F statistic has exactly Fisher's distribution with the two degrees of freedom reported beside it when y is a constant plus errors, and so does the F statistic on the last df coefficients when those are zero. Hence, under the null hypothesis, each reported p-value falls below a with probability exactly a.",
"all regressor matrices with full column rank and more rows than columns, all coefficient vectors, error variances and levels a in (0,1)",
"a distributional identity over a continuum of errors; a simulation can only estimate it",
"spreg/diagnostics.py:t_stat", "spreg/diagnostics.py:f_stat", "spreg/diagnostics.py:se_betas", "spreg/ols.py:BaseOLS")
p("Feasible GLS estimates are centred at the truth under symmetric errors",
"If y is generated as X b + e and e is as likely as -e, then the coefficients reported by GM_Error, GM_Error_Het, GM_Error_Hom, ML_Error, SUR (two-step or iterated), GM_ErrorRE and PanelRE deviate from b by d and by -d equally often, jointly with what is reported beside them (lambda, error variances, variance matrix of the coefficients, log-likelihood, iterations); so where the mean exists they are unbiased although the covariance matrix is estimated, and estimation errors are uncorrelated with the reported lambda and variances.",
"all data, weights, true coefficients, symmetric error laws (dependent and heteroskedastic errors included), optimisers and options",
"a statement about the law of the estimates over all symmetric error distributions",
"spreg/error_sp.py:BaseGM_Error", "spreg/error_sp_het.py:BaseGM_Error_Het", "spreg/error_sp_hom.py:BaseGM_Error_Hom", "spreg/ml_error.py:BaseML_Error", "spreg/sur.py:BaseSUR", "spreg/panel.py:BaseGM_ErrorRE", "spreg/panel.py:PanelRE")
p("With separate errors the results of a regime depend on its own surroundings only",
  "With regime_err_sep=True (and, for the combo classes, regime_lag_sep=True) the coefficients, their variances, the residuals and the fitted values that the spatial error classes report for one regime are determined by the observations of that regime, the links among them and, with slx_lags=s, the values of x and the rows of the weights within s steps from them: anything else in the data - y, x, weights and regime labels of other observations, the number and the order of the other regimes - may change without changing them.",
  "all data sets, weights, regimes, estimators (GM, GM-Het, GM-Hom, ML), options, optimisers and pairs of runs that succeed",
  "A statement about all pairs of data sets that agree around a regime; a test compares a few.",
  "spreg/error_sp_regimes.py:_work_error", "spreg/error_sp_regimes.py:_work_endog_error", "spreg/error_sp_regimes.py:GM_Error_Regimes._error_regimes_multi", "spreg/error_sp_het_regimes.py:_work_endog_error", "spreg/error_sp_hom_regimes.py:_work_endog_error", "spreg/ml_error_regimes.py:_work_error")
p("With separate equations the OLS, 2SLS and spatial lag results of a regime depend on its own surroundings only",
  "With one equation per regime (OLS_Regimes and TSLS_Regimes with regime_err_sep=True; GM_Lag_Regimes and ML_Lag_Regimes with the lag, and for GM_Lag_Regimes the errors, separated by regimes) coefficients, variances, residuals and fitted values of a regime are determined by its own observations, the links among them and, with slx_lags=s, by x and the weights within s steps; what happens in other regimes does not matter.",
  "all data sets, weights, regimes, options (robust white, ogmm), optimisers and pairs of runs that succeed",
  "A statement about all pairs of data sets that agree around a regime; a test compares a few.",
  "spreg/ols_regimes.py:_work", "spreg/twosls_regimes.py:_work", "spreg/twosls_sp_regimes.py:_work", "spreg/twosls_sp_regimes.py:GM_Lag_Regimes", "spreg/ml_lag_regimes.py:_work", "spreg/regimes.py:check_const_regi")
p("A SUR with regimes estimates, names and tests one set of coefficients per regime, and leaves the data alone",
  "In SUR, SURerrorGM and SURerrorML with regimes the coefficients of every equation are named by regime and variable and multiply that variable in the observations of that regime. In SUR the starting values are the least squares estimates of each regime by itself, fitted values and residuals use the coefficients of the regime of the observation, and, given the error covariance between equations, the coefficients of a regime solve the SUR equations of its own observations. The Chow test of a variable in an equation exists whenever the estimates do and is zero exactly if its coefficients agree in all regimes; the table lists every test once with its variable and its number of restrictions. The caller's dictionaries are left alone: repeating a call, or dropping regimes afterwards, gives what a fresh call gives.",
  "all systems of equations, regressors, labels, numbers of regimes, weightings and iteration settings, and pairs of calls on the same data",
  "It ranges over all systems and over sequences of calls; a test looks at one call.",
  "spreg/sur.py:SUR", "spreg/sur_error.py:SURerrorGM", "spreg/sur_error.py:SURerrorML", "spreg/regimes.py:Regimes_Frame", "spreg/summary_output.py:summary_chow")
p("Chow tests of OLS_Regimes have their nominal size under normal errors",
  "OLS_Regimes with regime_err_sep=False: if y is generated with independent normal errors of equal variance and the coefficients of a variable are the same in all regimes, the Chow statistic reported for it over its degrees of freedom has exactly Fisher's distribution with those and n-k degrees of freedom, and likewise the joint statistic when all coefficients are stable; the tests are computed with probability one; and the reported p-value falls below a with probability a.",
  "all designs of full column rank, numbers of regimes and variables, stable coefficient vectors, error variances and levels a in (0,1)",
  "A distributional statement over a continuum of errors; simulations only estimate it.",
  "spreg/ols_regimes.py:OLS_Regimes", "spreg/regimes.py:wald_test", "spreg/regimes.py:Chow", "spreg/regimes.py:_chow_run")
p("The variance matrix printed with vm=True is labelled with its coefficients",
  "With vm=True the summary prints the variance matrix of the coefficients, and each column stands under the name of the coefficient whose variance and covariances it holds: for a single equation, and with one model per regime, where block c is the matrix of regime c under the names of regime c and everything else is zero.",
  "all classes, numbers of regimes and of regressors, coefficient names and matrices",
  "The pairing of positions must be right for every number of regimes and coefficients; examples test a few.",
  "spreg/output.py:_summary_vm", "spreg/error_sp_regimes.py:GM_Error_Regimes._error_regimes_multi", "spreg/error_sp_regimes.py:GM_Endog_Error_Regimes._endog_error_regimes_multi", "spreg/ols_regimes.py:OLS_Regimes._ols_regimes_multi")
p("Sparse and dense arrays give the same results",
  "The helpers spdot, spmultiply, sphstack, spbroadcast, spinv, spfill_diagonal and splogdet, and with them BaseOLS, BaseTSLS and the White and HAC variances, compute the same numbers from arrays with the same entries however they are stored (NumPy array, CSR or CSC matrix); storage they do not support raises an exception instead of giving other numbers.",
  "all arrays, shapes and storage formats of each argument",
  "Every combination of storage formats and every matrix; tests use a few formats and matrices with positive determinant.",
  "spreg/sputils.py:spdot", "spreg/sputils.py:spmultiply", "spreg/sputils.py:sphstack", "spreg/sputils.py:spbroadcast", "spreg/sputils.py:splogdet", "spreg/sputils.py:spinv", "spreg/sputils.py:spfill_diagonal", "spreg/ols.py:BaseOLS", "spreg/twosls.py:BaseTSLS", "spreg/robust.py:robust_vm")
p("OLS, 2SLS and GM_Lag are consistent",
  "As the sample grows, the probability that OLS, 2SLS or spatial two-stage least squares (GM_Lag) fails, or misses a true coefficient by any fixed amount or more, goes to zero: for OLS when the variances of the coefficients vanish; for 2SLS when the averaged cross products converge to limits of full rank and the instruments are asymptotically uncorrelated with the errors; for GM_Lag on data y = a + x b + rho W y + e with uncorrelated errors of bounded variance, when I - rho W is regular, W (I - rho W)^-1 has bounded row and column sums and the averaged products of the instruments the class builds have limits of full rank.",
  "every sequence of samples, weights matrices, regressors, parameters, numbers of lags and error distributions with two moments",
  "A test fits one sample; consistency is a statement about the limit of probabilities over all samples.",
  "spreg/ols.py:BaseOLS", "spreg/twosls.py:BaseTSLS", "spreg/twosls_sp.py:BaseGM_Lag", "spreg/utils.py:set_endog")
p("OLS standard errors are consistent, White's under heteroskedasticity",
  "As the sample grows, the probability that the error variance OLS reports (with n or with n - k) misses the true one by any fixed amount goes to zero, for any regressors, if errors and their squares are uncorrelated with bounded variance. If x'x/n has a regular limit Q, n times the reported variance matrix comes arbitrarily close to s Q^-1; with robust='white' and bounded regressors n times the reported matrix comes arbitrarily close to Q^-1 O Q^-1, where O is the limit of the averages of s_i x_i x_i', for error variances s_i that differ between observations in any way, with and without the correction for degrees of freedom.",
  "every sequence of samples, regressors, true coefficients and error distributions with the moments named",
  "A test compares one matrix with stored numbers; that the reported uncertainty is right in large samples is a statement about limits of probabilities.",
  "spreg/ols.py:BaseOLS", "spreg/robust.py:robust_vm", "spreg/utils.py:RegressionPropsVM")
p("Generalized moments estimation of the spatial error model is consistent",
  "If y = x b + v with v = lambda W v + e, where the errors are uncorrelated with equal variance and their products have bounded variance and are uncorrelated, W and (I - lambda W)^{-1} have bounded row and column sums, W has no self-neighbours, the regressors are bounded, |lambda| is at most 0.99, averages of cross products converge and the three moment equations identify lambda and the variance, then GM_Error's coefficients, lambda and sig2 converge in probability to the true values, n times the reported variance matrix converges to the variance times the inverse of the limit of the cross products of the filtered regressors, and the estimator exists with a probability that goes to one.",
  "All growing experiments that satisfy the conditions, all weights, regressors and error distributions, any optimiser that minimises the squared moments over the admissible values.",
  "Consistency is a statement about a limit over all sample sizes and the distribution of the errors; simulations can only suggest it.",
  "spreg/error_sp.py:BaseGM_Error", "spreg/error_sp.py:_momentsGM_Error", "spreg/utils.py:optim_moments", "spreg/utils.py:get_spFilter")
p("Coefficient tables of the deprecated panel classes", "The tables that Panel_FE_Lag, Panel_FE_Error, Panel_RE_Lag, Panel_RE_Error and GM_KKP (with or without regimes) print have exactly one row for every coefficient, in the order of the coefficients, with its own name, value and, where there is one, its own standard error, statistic and probability: the regressors as named by the user (the constant first in the random effects classes), then the parameters. The printed variance matrix has one heading per column.", "all lists of names (given or not, with repeated names), all numbers of regressors and regimes, all coefficients and inferences", "rows are found by looking names up in the list of names and by arithmetic on the numbers of regimes and of varying coefficients; tests compare a few tables with distinct names", "spreg/summary_output.py:_get_var_indices", "spreg/summary_output.py:summary_coefs_allx", "spreg/summary_output.py:summary_coefs_somex", "spreg/summary_output.py:summary_coefs_lambda", "spreg/summary_output.py:summary_vm", "spreg/sp_panels.py:GM_KKP")
p("2SLS and GM_Lag standard errors are consistent, White's under heteroskedasticity",
  "As the sample grows, the error variance that two-stage least squares reports (divisor n or n - k) comes arbitrarily close in probability to the true one and n times the reported variance matrix to s (Q' B^-1 Q)^-1 (Q, B: limits of h'z/n and h'h/n), for any regressors and instruments for which the coefficients are consistent, if the average squared error converges and the averages of products of regressors with regressors and errors stay bounded. GM_Lag meets this under the conditions of Kelejian and Prucha (bounded row and column sums of W and (I - rho W)^-1, bounded regressors). With robust='white' n times the matrix GM_Lag reports converges to the sandwich, for error variances that differ between observations in any bounded way.",
  "every sequence of samples, weights, regressors, true coefficients and error distributions with the moments named",
  "A test compares one matrix with stored numbers; that the reported uncertainty is right in large samples, with W y among the regressors, is a statement about limits of probabilities.",
  "spreg/twosls.py:BaseTSLS", "spreg/twosls_sp.py:BaseGM_Lag", "spreg/robust.py:robust_vm")
p("GM_Error_Het and its standard errors are consistent with errors of unknown, different variances",
  "If y = x b + v with v = lambda W v + e, where the errors have any bounded variances, differing between observations in an unknown way, products of errors and of squared errors have bounded variances and are uncorrelated, W and (I - lambda W)^{-1} have bounded row and column sums, W has no self-neighbours, the regressors are bounded, |lambda| is at most 0.99, averages of cross products converge, the two moment equations identify lambda and their variance matrix is positive definite in the limit, then the coefficients and lambda that GM_Error_Het returns converge in probability to the true ones, for any number of iterations, any tolerance below one, with or without step 1c, and with or without hard_bound, and n times the variance matrix it reports converges to the robust variance of Kelejian and Prucha (2010): the sandwich of the filtered regressors for the coefficients, (J' Psi^-1 J)^-1 for lambda, zero between them.",
  "every sequence of samples, weights, regressors, parameters, error distributions and unequal variances with the moments named; every max_iter, epsilon, step1c and hard_bound; every optimiser that minimises over the box",
  "A test compares one data set with stored numbers; that the estimator and its standard errors survive arbitrary heteroskedasticity is a statement about limits of probabilities over all error variances.",
  "spreg/error_sp_het.py:BaseGM_Error_Het", "spreg/error_sp_het.py:get_psi_sigma", "spreg/error_sp_het.py:get_vc_het", "spreg/error_sp_het.py:get_vm_het", "spreg/utils.py:_moments2eqs", "spreg/utils.py:optim_moments", "spreg/utils.py:get_A1_het")
p("GM_Error_Hom is consistent when the errors have equal, unknown variances",
  "In a linear regression with a constant or not, whose errors follow v = lambda W v + e with uncorrelated innovations of equal, unknown variance s and |lambda| <= 0.99, the coefficients and lambda that GM_Error_Hom returns converge in probability to their true values as the number of observations grows, for each choice of the first moment (A1 'hom', 'hom_sc' or 'het') and every max_iter >= 1, provided weights and regressors are bounded, the moments converge and identify lambda, and the optimiser returns a minimum over the admissible values. n times the reported variances converge to those of generalized least squares for the coefficients, s times the inverse of the limit of X_s'X_s/n, and to (J' Psi^-1 J)^-1 for lambda, where Psi holds the variances of the moments, including the excess kurtosis of the errors. With A1='het' the coefficients and lambda are reported as uncorrelated.",
  "every sequence of samples, weights, regressors, parameters and error distributions with the moments named; every first moment, max_iter and epsilon; every optimiser that minimises over the box",
  "A test compares one data set with stored numbers; that estimates and variances converge whatever the distribution of the errors, its kurtosis included, is a statement about limits of probabilities.",
  "spreg/error_sp_hom.py:BaseGM_Error_Hom", "spreg/error_sp_hom.py:moments_hom", "spreg/error_sp_hom.py:get_vc_hom", "spreg/error_sp_hom.py:get_omega_hom_ols", "spreg/utils.py:get_A1_hom", "spreg/utils.py:get_A2_hom", "spreg/utils.py:optim_moments")
p("GM_Endog_Error and GM_Combo are consistent although regressors are correlated with the errors",
  "In a regression whose regressors may be correlated with the errors, with errors v = lambda W v + e, innovations of equal, unknown variance s and |lambda| <= 0.99, and with bounded instruments, the coefficients, lambda and sig2 of GM_Endog_Error converge in probability to their true values as the number of observations grows, provided the averages of products of instruments with regressors and with their spatial lags converge to limits of full rank, the moments converge and identify lambda, and the optimiser returns a minimum over the admissible values. n times the reported variances converge to s (Q'B^-1Q)^-1, Q the limit for the filtered regressors. The same holds for the estimates of GM_Combo in the spatial lag model y = a + x b + rho W y + v, the coefficient rho included, with conditions on W and x only. With hard_bound=True it holds if |lambda| < 0.99.",
  "every sequence of samples, weights, regressors, instruments, parameters and error distributions with the moments named; every number of lags w_lags and lag_q; hard_bound on and off; every optimiser that minimises over the box",
  "A test compares one data set with stored numbers; that estimates converge to the truth although regressors and errors are correlated is a statement about limits of probabilities.",
  "spreg/error_sp.py:BaseGM_Endog_Error", "spreg/error_sp.py:BaseGM_Combo", "spreg/twosls.py:BaseTSLS", "spreg/utils.py:optim_moments", "spreg/utils.py:get_spFilter", "spreg/error_sp.py:_momentsGM_Error")
p("Endogenous regimes: constant regressors, ignored options and failures of the search",
  "OLS_Endog_Regimes, TSLS_Endog_Regimes and GM_Lag_Endog_Regimes drop the regressors that are constant, announce them once by name, and estimate the final model with the remaining regressors under their own names, in the given order, the same ones that the search saw; the default quorum is the larger of 30 and ten times the number of these regressors plus one. A warning about options appears exactly if constant_regi, cols2regi or regime_err_sep differ from the documented values, and the model is estimated with the documented values in any case. A single regressor may be one-dimensional. An exception raised during the search reaches the caller as it is, or as a ValueError that explains the quorum.",
  "every set of regressors and names, options, quorum, number of clusters (given or not) and outcome of the search",
  "The unit tests call the classes with regressors that vary, two-dimensional arrays and searches that succeed.",
  "spreg/ols_regimes.py:OLS_Endog_Regimes", "spreg/twosls_regimes.py:TSLS_Endog_Regimes", "spreg/twosls_sp_regimes.py:GM_Lag_Endog_Regimes", "spreg/user_output.py:check_regi_args", "spreg/user_output.py:check_constant")
p("NSLX: accepted coordinates and how they are reported",
  "NSLX accepts as coordinates an array with two columns, a data frame with two columns or a GeoSeries of points, uses them unit by unit in the given order, and raises for everything else (another number of columns, other geometries, other types) instead of estimating. If the estimation succeeds so does the report, which shows the names given by the caller, else those of the columns or of the series, in a cell of fixed width, shortened if necessary.",
  "every kind of argument, number of units, index labels, geometries, column labels and names",
  "The unit tests pass two arrays or one data frame with string labels; geometries, labels and names range over unbounded sets.",
  "spreg/user_output.py:check_coords", "spreg/nslx.py:NSLX", "spreg/output.py:_nslx_out")
if __name__=="__main__":
    with open('/verif/properties.jsonl','w') as f:
        for x in P: f.write(json.dumps(x)+"\n")
    print(len(P))
