# Notes (reading /repo/spreg); tool: python3 /tmp/w/strip.py file.py  (prints w/o docstrings with line numbers)
## Defects found (prove negation w/ witness + partial theorem)
- user_output.flex_wx q_lags>0 & slx_vars list w/ some False: bigq = hstack(lag_xq, lag_xq2) but bignameq = qlagname2 + qlagname -> names misaligned with columns.
- utils.set_endog_sparse: w_lags>=3 duplicates columns (w@q stacked on cumulative q): [Wx,W2x,W2x,W3x]; set_endog (dense) gives [Wx,W2x,W3x]. Claimed "same as set_endog". equal for w_lags<=2.
- sputils.spmultiplier 'power': stops as soon as adidiff=rho^p tr(W^p)/n <= mtol; bipartite W (rook lattice): tr(W^3)=0 so stops at pow=3; also rho<0 odd trace negative stops. adi starts 1.0, pow 1 (tr W=0 assumed), rhop=rho, ww=W.
- sputils.splogdet dense returns sgn*logdet; sparse returns log|det|: disagree when det<0.
- regimes.Wald.__init__ `if not q` raises for arrays with >1 element.
- skater_reg.fit: when find_cut finds no valid cut returns (deletion(None,None,inf), inf, None, inf, None) -> current_labels_=None, loop exits, partition lost. Also first iteration with islands: trees_scores None so d_score=-new_score of only the cut tree.
- sur_utils.sur_dictxy / sur_dictZ plm: uses dict.has_key -> AttributeError in py3 always.
- spsearch.stge_pre 697-704: GM_Lag exception + slx=1: result=models[1]="LAG" but k=idv+1=5 (SDM) .
- spsearch: robust, sig2n_k args ignored.
- GMM_Error regimes: hard_bound, slx_vars, spat_diag not forwarded. OLS regimes: vif, slx_vars not forwarded.
- lower: NaN p-values in stge_* -> result unbound (UnboundLocalError).
## Identities to prove
- LM_SARMA = LMlag+RLMerr = LMerr+RLMlag (diagnostics_sp 547-678); rlm_wx, rlm_durlag >= 0 (680-842); lm_slxerr = sum; comfac_test
- _momentsGM_Error error_sp 1380-1407: g - G(l,l2,s2) = sample moments of e=u-lWu. _moments2eqs utils 246-290 likewise.
- A1_het: zero diagonal, symmetric; A1_hom: trace zero; A2 symmetric.
- TSLS (twosls 134-228): q=yend-> OLS etc. OLS (ols 100-128). WLS 540-575. robust_vm (robust 13-118) PSD; hac.
- sur_est (sur_utils 361-410) GLS; sur_mat2dict/dict2mat round trip.
- buildR1var (regimes 336-382) kernel = equal coefficients; x2xsp (606-641) ; regimeX_setup; set_name_x_regimes alignment; check_cols2regi; check_const_regi
- power_expansion; inverse_prod; sp_att; get_spFilter; i_multipliers; spmultiplier; _sp_effects
- optim_k; make_wnslx; set_warn; RegressionProps cache
- dgp_spdurbin 660, dgp_gns 785: w.n mismatch prints error but falls through (others return None).
- diagnostics.breusch_pagan/koenker_bassett `z == None` fails with array z. _get_weighted_var `if yend != None` fails w/ arrays.
- panel_utils.check_panel 44-128 wide->long column-major; demean_panel 131-159 (J = I - (1-phi)/t 11'; Q=kron(J,I_n)) idempotent when phi=0; w_utils.symmetrize 5-26 D^{1/2} W_r D^{-1/2} symmetric.
- dgp: make_error.. 40-1009; dgp_lag solves y = rho W y + xb + u (true_inv). make_bin mean threshold; make_vmult.
- diagnostics: f_stat 41-117, r2 193-252 (in [0,1] when const), ar2, vif 1173-1268 (>=1), likratiotest 1318-1398 (likr>=0, df>=1), white 861-1014, bp 710-858, kb, jb 624-707, dwh 1400-1432, akaike/schwarz 429-554 consistent with loglik
- spsearch lines: classic 172-234 decision, 236-302 final; kb 418-433; pre 611-713, 715-780; gets_gns 906-1045,1047-1115; gets_sdm 1240-1333,1335-1413
- DEFECT utils.set_endog (655-696): slx_vars list & slx_lags>=2: lag_x has k*slx_lags cols, boolean mask len k -> IndexError always. Also yend given & slx_lags>0: instruments start at W^{slx+2}x (get_lags of W^{slx+1}x), skipping W^{slx+1}x; yend None gives W^{slx+1}..W^{slx+w_lags}. name_q names (GM_Lag 631-646) say W2_x though column is W3_x. Also with slx_vars list: name_x0 = const + non-lagged names + last wkx names -> reordered & 'W_x' for col W^2 x.
- DEFECT ML_Lag/ML_Error ORD: vm uses symmetrized W: tr1,tr2 invariant but tr3=tr((WA^-1)'(WA^-1)) not -> witness path3 rho=0: 2.5 vs 2.
- ML lag: lag_c_loglik 703, _sp 716, _ord 731; BaseML_Lag 187-317; u=e0-rho e1; predy; ml_error 162-281
- OLS_Regimes: multi 542-681 vs pooled 497-506 same betas; cores schedule-independent. OLS_Endog_Regimes 1044-1085 (optim_k, _trace index); N=1 -> _trace[0][0]=[]; trace=False -> AttributeError.
- GM_Lag 510-675; BaseGM_Lag 173-201
- GM hom/het iteration loop: error_sp_hom 143-160, error_sp_het 135-159 `while iteration<max_iter and eps>epsilon`; iter_msg utils 727: says "Maximum" whenever iteration==max_iter even if converged at last iter (DEFECT: message ambiguous); max_iter=0 -> unbound ols_s (NameError). GM_Error_Hom var_type 417 lacks 'o' for constant (others 'o').
- moments_hom error_sp_hom 1505-1542 (A sym), get_vc_hom 1545-1625, get_omega_hom 1628; get_psi_sigma het 1540, get_vc_het 1560-1598, get_vm_het 1601-1646, get_P_hat, get_a1a2 1660-1692, get_Omega_GS2SLS 1716-1768
- moments eq: G·[1,2λ] = Jacobian -d/dλ of moment.
