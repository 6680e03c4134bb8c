# Formal model of pysal/spreg in Lean 4 — design

## 1. What is proved, and about what

`/verif/lean/Verif/` holds
* `Verif/Model/*.lean` — the model: one Lean definition per function of `/repo/spreg`
  (each cites file and lines and names its simplifications);
* `Verif/Spec/*.lean` — small specifications written without the model's helpers;
* `Verif/Props/*.lean` — the property theorems, named `Cnn_...`, with non-vacuity
  `example`s beside them.

### Trusted base
* Lean 4.33.0's kernel. Axioms: at most `propext`, `Classical.choice`, `Quot.sound`
  (checked by `#print axioms` on every theorem in MANIFEST.json; see `tools/axioms.sh`).
  No axiom is added, and no proof is left open; neither compiled evaluation nor SAT-backed tactics are used.
* The reading of the Python: the model is written by hand from the source, the code is not run.
* Numbers: real (or general-field) arithmetic is exact. NumPy floats, rounding, overflow and
  NaN propagation are **not** modelled, except where a property is about NaN or about a
  decision (then the value is an `Option`).
* `numpy.linalg.inv` is an `Option`-valued function that returns the two-sided inverse when
  the determinant is a unit, and otherwise `none` (LinAlgError). In floating point nearly singular
  matrices do not raise; that is outside the model.
* SciPy: `minimize`/`fmin_l_bfgs_b`, `minimize_scalar` and distribution functions
  (`chi2.sf`, `norm.sf`...) are parameters. CSR/CSC matrices are their dense meaning,
  except `x2xsp`, whose CSR assembly (data, indices, indptr) is modelled.
* libpysal `W`: a matrix with ids in row order; `lag_spatial(w, x)` = `W.sparse @ x`. For C146: neighbours, original weights
  and transformation; `w_subset` and `w_union` return binary weights, as their documentation says (libpysal is not installed
  here).
* pandas/geopandas: only the name/row bookkeeping is modelled.

### Not modelled
Printing (`summary_output.py` and the string formatting of `output.py`; the tables behind the summaries are modelled in Model/Output.lean), plotting, file access, timing, memory, and the
optimisers' search. The number of processes in `multiprocessing.Pool` appears as an arbitrary completion order.

## 2. Conventions
* Data matrices: `Matrix n k R` over finite index types for algebra; `List` of columns where the
  property is about order, number or names of columns.
* Python exceptions are values: `Except PyErr α` / `Option α`.
* Loops are structural recursions on explicit fuel; the fuel is the code's own bound where there is
  one, and otherwise every theorem quantifies over the number of steps.

## 3. Plan per property
Kept in step with properties.jsonl and MANIFEST.json; the limits of each claim are in the notes of MANIFEST.json.

| property | model | method |
|---|---|---|
| C01–C05 | columns as lists, `W` an arbitrary map on columns | induction on number of lags; negation witnesses for C03, C04 (w_lags≥3), C05 |
| C06–C09 | `Matrix` over a field / ℝ, `inv : Option` | algebra; least squares by completing the square |
| C10–C12 | same | projection algebra; PSD of `BᵀB` |
| C13–C16 | same | bilinear-form identities |
| C17–C20 | scalars and quadratic forms computed from the OLS fit | `field_simp`/`ring`; Schur complement for C18 |
| C21–C22 | state machine: cache = partial map, ops read/assign | invariant over all op lists |
| C23–C29 | rows with labels, CSR triples, list names | induction; kernel of R; block algebra; permutation of results |
| C30–C34 | loops with fuel over vectors | induction on steps, telescoping |
| C35–C37 | determinants/eigenvalue lists over ℂ, similarity | Mathlib's charpoly / det; witness for C36 |
| C38–C41 | `Fin T × Fin n` indexing, Kronecker | algebra; arithmetic on div/mod |
| C42–C44 | scalars from OLS fit | order arguments |
| C45 | decision trees over `Option` p-values | case analysis, all cells |
| C46–C47 | forest, cuts, score bookkeeping with arbitrary score | invariants over any history; witness for C47 |
| C48–C49 | iteration loops with arbitrary oracle | induction on fuel; witness |
| C50–C53 | argument shapes; column lists; string accumulation; matrices | case analysis, induction |
| C54–C55 | names of regressors and instruments as lists, `Spec/Lags` | induction on lags; witnesses for masks / yend |
| C56–C57 | OLS/GM variance matrices over ℝ | PSD of Gram matrices, congruence |
| C58, C60 | common factor test; Moran's I of residuals | explicit Jacobian of the restriction; trace identities |
| C59 | selection of tests as lists | case analysis |
| C61–C63 | Chow rows per named coefficient; `cols2regi`; constant columns per regime | list induction, kernel of R; witnesses |
| C64 | `optim_k`: trend regressions on windows of the trace | closed forms; witnesses |
| C65 | group-wise weights | positivity of quadratic forms; witness |
| C66 | heap of caller objects, every write recorded | case analysis on input shapes |
| C67–C68 | information matrices, log-Jacobian | sums of squares; spectral bound |
| C70, C71 | the iterated SUR loop as a fold; LM/LR tests | ascent invariant, log-det inequality; witness for LM lag |
| C72–C73, C78–C79 | 3SLS, F tests, DWH, pseudo R² | projection algebra |
| C74–C77 | White/BP/KB, JB, condition index | Gram matrices, eigenvalue scaling |
| C80–C82 | panel LM tests, Hausman, BSK | Kronecker/`panelW` algebra; witnesses |
| C83 | `Spec/Score`: likelihood, score, information, maximisation over directions | derivatives of log-determinants, Cauchy–Schwarz in the information metric |
| C84–C86 | Het/Hom GM with endogenous variables | first-order conditions; PSD of the sandwich; witnesses |
| C87–C94 | probit: Φ is the Gaussian measure, φ its derivative | calculus, log-concavity, induction on Newton steps |
| C95–C102 | panel ML: `Spec/Gauss` likelihoods of the whole panel | quasi-demeaning algebra, determinants of Kronecker sums; ascent; witnesses |
| C103–C108 | panel GLS/GM estimators | LSDV projection, GLS identities, expectations over finite distributions |
| C109–C113 | NSLX kernels, gradient, variance, names, weights builder | calculus in the parameters; witnesses |
| C114–C121 | SUR with spatial errors: moments, GLS, likelihood, loop as a relation over runs | block-diagonal algebra, determinants, ascent, equivariance |
| C122–C123, C127–C129 | `Spec/Fisher`: minus the expected second derivative of the normal log-density along a direction | path calculus of normal densities, trace identities |
| C124–C125 | `Chow` as run on the reported coefficients, per estimator class | index arithmetic, Wald form positive definite; witnesses |
| C126 | names of the regime-by-regime objects | list/character witness |
| C130–C131 | `reg.output` frame, its sorts and index alignments; names of the Chow table | stability of the sort, lookup lemmas; witnesses of the defects |
| C132–C133 | `cols2regi` and the `wx` labels in spatial lag models with regimes | blocks of the frame; exact condition for GM_Lag_Regimes |
| C134 | regimes branch of `_sp_effects` | positions of the blocks; symbolic witnesses |
| C135 | the multi-regime assembly loops | block positions disjoint and covering; Chow via C124 |
| C136 | the same loops with dropped variables | length of the slice versus length of the result |
| C137 | keyword binding, tables of parameters and forwarded arguments (transcribed by script) | lookup through the forwarded list; finite tables by kernel evaluation, arguments unbounded |
| C138 | same | same |
| C139 | the branches of GMM_Error, GMM_Error_Regimes | same |
| C140–C141 | a change of data `Tr` (order, basis, units, shift); 2SLS, GM error models as functions into results or exceptions | every step commutes with the change; induction on the loop |
| C142 | `optim_moments` around an arbitrary minimiser | Cholesky factor, scaling of each step |
| C143 | `BaseGM_Endog_Error` | first-order conditions of the second stage |
| C144 | joint branch of the GM error models with regimes | filter and frame commute iff no links between regimes; shift of y, explicit counterexample |
| C145 | their loops | induction over the passes; example with two passes |
| C146 | `w_regime`, `w_regimes`, `w_regimes_union` on libpysal weights objects (neighbours, weights, transformation) | invariant of the union loop; weights compared with the given weights without links between regimes |
| C147 | joint branch of `GM_Lag_Regimes` with `regime_lag_sep` | block structure of framed 2SLS; powers of a matrix without links |
| C148 | `GM_KKP`, `BaseGM_KKP` (deprecated) and its data checks | equality of moments with `GM_ErrorRE`, then of the fits |
| C149 | `BaseML_Lag`, `BaseML_Error` as a whole (optimiser abstract) | transformation laws through objective, fit and information matrices; divergence guard of the power expansion |
| C150 | statistics of `LMtests`, `MoranRes`, `AKtest` on transformed data | projections of the transformed design are the permuted projections; statistics rewritten through them; origin as a basis change with row sums one |
| C151 | `panel_fe.py`, `panel_re.py` next to `panel.py` (optimisers abstract) | objectives compared; for RE error the two square roots have the same Gram matrix; counterexamples for `logll` and for weights that symmetrising changes |
| C152 | name, type and coefficient lists of every class without regimes (`Model/Tables.lean`) | the table equals a separately written expected table, by list algebra on top of C01, C02, C04; defects exhibited for every input |
| C153 | the decisions of every regimes class on its options, with warnings and exceptions (`Model/Dispatch.lean`) | case analysis over the options with lists of any length; the classes that drop an option silently are exhibited |
| C154 | `_optimal_weight` (`Model/OptGMM.lean`) | least squares in the metric of the moment variance, Gauss-Markov argument, conjugation of inverses, block matrices for the regimes |
| C155 | the order of reads and assignments of the cached attributes in the constructors (`Model/Residuals.lean` on `Model/Cache.lean`) | invariant on the cache; the two classes that re-estimate after caching are exhibited |
| C156 | search, choice of the number of regimes and final regressions of the three endogenous regimes classes (`Model/Endog.lean` on `Model/Skater.lean`, `Model/OptimK.lean`) | the cut histories of C46 indexed by the trace; sums of squares over regimes; defects exhibited |
| C157 | table of coefficients of the Durbin regimes models, pairs of the common factor test, impacts (`Model/RegDurbin.lean`) | tables as blocks of rows, the marking by counting from the end is computed on blocks for every size; counterexamples for the other layouts |
| C158 | pooled OLS/2SLS with regimes from labels and columns to results (`Model/PooledRegimes.lean`) | the design of the renamed data is the design with columns moved by an explicit permutation; least squares equivariance (C140 lemmas); Chow contrasts with another reference regime are an invertible combination (C27_invariant) |
| C159 | joint branches of the GM error models with regimes (`Model/GMRegimes.lean`), 2SLS and ML on framed regressors | every framing that commutes with a change of data inherits the equivariance of C140/C141/C149; `frame` commutes with reordering, renaming and rescaling; `C149_lag_all`: the power expansion and the whole ML_Lag fit commute with reordering |
| C160 | what the spatial diagnostics read from OLS_Regimes: design, fit, types of the columns and the attribute `k` (`Model/RegDiag.lean`) | counting of columns by type; the assembled fits of the regimes are the fit on the expanded design (C28); C60 for Moran |
| C161 | `Model/Probit.lean` | gradient and Hessian in another basis, induction over the Newton loop; remeasuring is a triangular change of basis; sign change for the coding of the outcome |
| C162 | `Model/SUR.lean`, `Model/SURSpatial.lean` | the normal equations of the new data are a block-diagonal congruence and a permutation of the old ones; induction over the iterations (in both directions for the unbounded loop of SURerrorML) |
| C163 | `Model/PooledRegimes.lean`, `Model/LagRegimes.lean` | the middle matrix of the expanded instruments is computed block by block; congruence with a block-diagonal matrix acts on each block |
| C164 | `Model/HardBound.lean`, `Model/GM*.lean`, `Model/Impacts.lean` | the guarded run is below the unguarded run in the order `ok only if ok with the same value`, shown through every step and loop; the last lambda of the loop passed the check; counterexamples with an exact fit on a ring of three observations |
| C165 | `Model/DGPRandom.lean` | a generator call is the documented distribution of its result (Mathlib's Gaussian, Cauchy, explicit densities for Laplace and uniform), a sample is the product measure; moments by integration (Gamma integrals for Laplace), covariances from independence; the uniform and lognormal counterexamples by the same integrals |
| C166 | `Model/DGPRandom.lean`, `Model/DGP.lean`, `Model/ML.lean`, `Model/Diagnostics.lean` | density of an affine image of a product of normals (change of variables, determinant), compared with the closed forms of `Spec/Gauss` that the models were shown to report (C37 etc.) |
| C167 | `Model/Linear.lean`, `Model/DGPRandom.lean`, `Model/PanelGLS.lean`, `Spec/Errors.lean` | estimates as linear and quadratic forms in the errors; expectation of a quadratic form; trace of the residual maker; PanelFE through C103 |
| C168 | `Model/GM.lean`, `Model/PanelGLS*.lean`, `Spec/Errors.lean` | moment conditions rewritten as quadratic forms in the errors (C33, C106), expectation of quadratic forms, zero traces; random effects split into within and between parts |
| C169 | `Model/LM.lean`, `Model/RegDiag.lean`, `Model/DGPRandom.lean`, `Spec/Errors.lean` | residuals as orthonormal combinations of the errors, second and fourth moments of the direction of a rotation-invariant vector (from rotations of two coordinates only), spectral theorem for the quadratic form, traces by C60 |
| C170 | `Model/SURLag.lean`, `Spec/SURLag.lean` | induction over the lag loop; 2SLS is invariant under reordering instruments (permutation to equivalence); C72 for the first stage; duplicated columns make the normal matrix singular |
| C171 | `Model/SURLag.lean` | inversion of the monadic look-ups (`Forall₂`); the long layout has no successful path |
| C172 | `Model/SURSummary.lean`, `Spec/Float.lean` | cuts `int(k*len/K)` bounded by the relative error of the rounding; rows by induction over regimes; printed names and tests matched by index |
| C173 | `Model/Linear.lean`, `Model/GM.lean`, `Model/PanelGLS.lean`, `Model/SUR.lean`, `Spec/Blue.lean` | Aitken: the normal equations of GLS make the estimate orthogonal to the difference from any unbiased linear competitor; definiteness from the second moments |
| C174 | `Model/Diagnostics.lean`, `Model/PValues.lean`, `Spec/Student.lean` | two orthogonal projections are diagonal in one orthonormal basis, which leaves independent normal errors independent normal; the tail of a law without atoms at a draw from it is uniform |
| C175 | `Model/GM.lean`, `Model/GMIter.lean`, `Model/ML*.lean`, `Model/SUR.lean`, `Model/PanelGLS.lean`, `Spec/Centre.lean` | pathwise: opposite errors reflect the coefficients at the truth and change nothing else; then the law is symmetric |
| C176 | `Model/RegWork.lean` (`_work_error`, `_work_endog_error`, `w_regime`, `flex_wx` on the complete weights, assembly of `Model/RegimesMulti.lean`), `Spec/Local.lean` | two data sets that agree around a regime give the worker of that regime the same arguments; the spatial lags by induction on the number of steps; the assembly by C135 |
| C177 | `Model/RegWorkLag.lean` (`_work` of the OLS, 2SLS, GM lag and ML lag classes, `w_regimes`, `check_const_regi`), `Spec/Local.lean` | as C176; counterexamples: a regressor that is constant in another regime, and the spatial lag with `slx_lags=1` |
| C178 | `Model/SURReg.lean` (constructors of the SUR classes with regimes, the dictionary of the caller, Chow tests within equations, `summary_chow`) | the columns of the expanded design are indexed by regime and variable, then C41 (GLS equations) and C124 (Wald tests) per regime; counterexamples for all inputs: second calls raise, printed degrees of freedom |
| C179 | `Model/OLSChow` (BaseOLS on the regime design, classical variance with n-k, `_chow_run`); `Spec/ChiSq`, `Spec/Student` | quadratic forms in orthogonal projections give Fisher's law; the chi-squared tail is strictly convex, so by Jensen the chi-squared p-value over-rejects (violation) |
| C180 | `Model/VmPrint` (`_summary_vm`, names collected over the regimes, on top of `Model/RegimesMulti`) | position arithmetic on the block-diagonal matrix and on the concatenated names; counting shows the shift (violation) |
| C181 | `Model/Sputils` (helpers with the storage class of each array; BaseOLS, BaseTSLS, robust_vm written with them) | case analysis on storage, reduction to `Lin.ols`, `Lin.tsls`; LU determinant for `splogdet` (violation) |
| C182 | `Props/Consist`, `Props/ConsistEx`, spec `Spec/Consistent`: 2SLS error as a continuous function of averaged cross products near a full-rank limit, Chebyshev for linear forms of the errors, Schur's bound for `W (I - rho W)^-1`; experiments with their own probability space per sample size. |
| C183 | `Props/ConsistVar`, `Props/ConsistVarEx`: Markov for the hat-matrix form, Chebyshev for the squared errors, expansion of squared residuals in errors and coefficient error, continuous mapping for the sandwich. |
| C184 | Existing models `gmError`, `momentsGM`, `spFilter` with any optimiser that minimises over the box. Spec/Pairs (regularity conditions of Kelejian and Prucha); law of large numbers for quadratic forms from the second moment of a sum over pairs (Props/QuadLLN), then for residuals; minimisers solve the limiting moment equations (Props/ErrConsist); least squares on filtered data (Props/GMErrorConsist). Example: copies of a path, normal errors; optimiser exists by compactness |
| C185 | `Model/PanelTable.lean` (`_get_var_indices`, `summary_coefs_*`, names of the panel classes) | the list of positions is computed in closed form (blocks of a range), rows follow by induction on it; `list.index` as first position |
| C186 | `Model/Linear.lean` (`tslsZH`, `sandwichTSLS`), `Model/LagRegimes.lean` (`gmLag`) | residual = error minus `z` times the coefficient error, so weighted squares of residuals differ from those of errors by terms with a vanishing factor times a bounded average (Spec/MeanBdd); every regressor of the lag model is a bounded vector plus a spatial lag of the errors, whose products obey the law of large numbers for quadratic forms (QuadLLN, now for any variances); matrix inversion by continuity |
| C187 | `Model/GMIter.lean` (`gmErrorHet`, `gmLoop`, `vmHet`), `Model/GM.lean` (`moments2eqs`, `A1het`, `psiSigma`, `vcHet`), any optimiser that minimises over the box | first step: moments converge (law of large numbers for quadratic forms with unequal variances), a continuous function with a unique zero on a compact set has a consistent minimiser (HetOpt); induction over the passes of the loop: each returns a consistent pair; variance of the moments: squared residuals differ from squared errors by vanishing terms and their weighted products obey the law of large numbers for the squared errors (HetConv); inverses by continuity |
| C188 | `Model/GMIter.lean` (`gmErrorHom`, `homStep`, `vcHom`, `omegaHomOls`, `gmLoop`), `Model/GM.lean` (`momentsHom`, `A1hom`, `A2hom`), any optimiser that minimises over the box | as C187 with moments whose matrices have trace zero (their expectation vanishes under equal variances, HomConv); average squares and fourth powers of the filtered residuals converge to those of the errors; induction over the passes (HomLoop); blocks of the variance matrix by continuity (GMHomConsist) |
| C189 | `Model/GMEndog.lean` (`gmEndogError`), `Model/Linear.lean` (`tslsZH`), `Model/LagRegimes.lean` (`lagZ`, `lagH`), `Model/HardBound.lean` (`guarded`), any optimiser that minimises over the box | 2SLS residuals differ from the disturbances by a vanishing combination of random regressors, so averages of their quadratic forms have the limits of those of the disturbances (Cauchy-Schwarz and the law of large numbers of C184); minimiser as in C184; second stage by continuity; for GM_Combo every regressor is a bounded vector plus a spatial lag of the innovations (EndogConsist) |
| C190 | `Model/EndogArgs.lean` (`endogFit`, `checkRegiArgs`, `quorumArg`, `runSearch`), `Model/Checks.lean` (`checkConstant`, `setNameX`); the search is a parameter | the second check of the regressors finds nothing left to remove (C51); with a constant regressor passed twice, the list of names is one too short for the positions, so an index is out of range; case analysis of the guarded search |
| C191 | `Model/Coords.lean` (`checkCoords`, `nameCell`, `nslxCoords`); the estimation is a parameter | cases of the argument; induction on the units of a GeoSeries; lengths of the printed strings |

Specifications that do not mention the model: `Spec/Lags` (names and powers of W), `Spec/Score` (score statistics),
`Spec/Gauss` (normal densities of the spatial and panel models), `Spec/Fisher` (expected information), `Spec/Local` (data sets that agree around a regime), `Spec/Errors` (random errors with given second moments), `Spec/Blue` (best linear unbiased estimation), `Spec/Student` (Student's and Fisher's distributions), `Spec/Centre` (estimators centred at the truth), `Spec/Float` (rounding).
