# Design: a Lean 4 model of pa-m/sklearn

Subject: the Go library in `/repo` (read as text, never built or run). The properties are in
`properties.jsonl`; the current status of each one is in `MANIFEST.json`.

## Layout

* `lean/Verif/Model/*.lean` – model definitions only, each citing the Go file and lines it follows and
  stating every simplification.
* `lean/Verif/Spec/*.lean` – small specifications that do not mention model helpers
  (only where a spec needs definitions of its own).
* `lean/Verif/Lemmas/*.lean` – helper lemmas.
* `lean/Verif/Props/*.lean` – the property theorems named in the manifest, each with an `example`
  that exhibits a non-trivial instance of its hypotheses, and the negative theorems
  (`..._violated`) for the places where the Go code does not satisfy the property.

## Trusted base

* The Lean 4.33.0 kernel. Axioms used by the theorems: at most `propext`, `Classical.choice`,
  `Quot.sound`. No `sorry`, no `native_decide`, no axioms of our own.
* The hand translation Go → Lean. It is checked by reading only; every definition cites its source lines.
* Go semantics that the model builds in:
  * `float64` is modelled as an element of an arbitrary linearly ordered field `K` (so also ℚ and ℝ), or as ℝ
    where `exp`, `log`, `pow`, `sqrt` are needed. **Rounding, overflow, infinities and signed zero are
    not modelled.** NaN is modelled explicitly only where a property is about missing values.
  * `int` is ℕ or ℤ without overflow.
  * Out-of-range indexing, nil dereference and explicit `panic` are modelled as `none` / an error value where
    the property is about them, otherwise shapes are hypotheses of the theorem.
  * `gonum` primitives (`NewDense` panicking on zero sizes, `Mul`, `At`, `Set`, `sort`, `rand.Perm`)
    are modelled by their documented contracts.
* `neural_network/basemlp32.go` is textually `basemlp64.go` with 64 replaced by 32 (checked by `diff` after that substitution), and the
  `General32` half of `general.go` mirrors the `General64` half: with rounding not modelled, every statement about one is about both.
* Non-determinism is a universally quantified parameter: random draws, map iteration order, order of ties
  left by `sort.Sort`, interleavings of goroutines, sizes of chunks returned by an `io.Reader`.

## Properties: what is modelled, how it is proved

| Id | Model | Proof idea |
|----|-------|------------|
| C01 | the list of `(th,start,end)` calls made by the dispatch loop | invariant of the loop: ranges issued so far tile `[0,min(N,th*s))` |
| C02 | each worker = list of single-cell writes; a run = any interleaving of the lists | writes to equal cells carry equal values, so any interleaving ends in the sequential array |
| C03 | flat `Data` + `Stride` + bounds, views as offset/stride maps; `MatRowSlice.At/Set` literally | arithmetic on offsets, injectivity of `(i,j) ↦ i*S+j`; `MatRowSlice.Set` writes row `i-Start`: violated, witness |
| C04 | `Split` on index lists with the draws as parameters (shuffle = any permutation, `Intn` = any number) | swaps are permutations; sizes by arithmetic |
| C05 | same | false: witness of random draws; what holds (C04) is the partial |
| C06 | `TrainTestSplit` on lists of rows, permutation as parameter, zero-size `NewDense` panics | permutation lists + `Option` analysis |
| C07 | the product loop over keys in any order | membership characterisation by induction, `Nodup`; empty value list: order-dependent, witness |
| C08 | the best-candidate scan | fold invariant "first strict best of the prefix" |
| C09 | workers writing slot `isplit`; `Swap` on the four slices | reuse of C02; induction over swap sequences |
| C10 | heap of intercept cells, estimators as records of addresses | witness history violating isolation; isolation for unfitted originals |
| C11 | steps as abstract state-transformer records | induction over the list of steps |
| C12,C13,C14 | sorted insertion of labels with support counts; `sort.SearchFloat64s` | sortedness invariant, refinement to a multiset count; unknown labels: witness |
| C15 | column blocks and `baseCol` arithmetic as coded | round trip for one output column; for two columns the second is never decoded, or decoding panics |
| C16,C17 | columnwise min/max, scale, min; incremental update | ordered-field algebra, min/max of append |
| C18 | mean, variance, scale per column | field algebra / ℝ for sqrt |
| C19 | the update formulas as coded | mean merges right; variance wrong, witness |
| C20 | `combinations`, `combinationsWithReplacement`, powers | combinatorial enumeration by induction |
| C21 | per-feature class lists, flags, decode | as C12; decode of class index violated |
| C22 | index vectors of the permutation | permutation inverse |
| C23 | cells as `Option K` | list induction, mean of present cells |
| C24 | edges and bin search | sorted search |
| C25 | real powers and logs | real analysis; λ=0,2 branches unreachable as coded: witness |
| C26–C28 | label lists, sums | sums over lists; confusion matrix with unknown predictions: witness |
| C29,C30 | curve computed by scan over sorted scores | double counting: trapezoids = pair counts |
| C31 | sums | sum of squares; weights cancel: witness |
| C32,C33 | the DFS of `dbscanInner` with stack and a fuel shown to suffice, after either radius search (exhaustive, tree) | reachability invariant; `>` vs at least, one feature with a tree: witnesses |
| C34 | argmin scan, centroid means, any order of summation | argmin invariant, mean minimises squares |
| C35,C36 | cache map with timestamps, eviction as coded, victims' order arbitrary | invariant "every entry is a kernel value"; size invariant; capacity 0: witness |
| C37,C38 | one SMO step with arbitrary kernel/errors, loop as any sequence of steps | invariant induction |
| C39,C40 | sort by distance with arbitrary tie order; filter | sorted-permutation prefix |
| C41,C42 | tree build with fuel, query with priority queue | bounding-box lower bound; non-termination witness for repeated points |
| C43 | the code of `MinkowskiDistanceP` | one-feature path: witness |
| C44 | vote counting in any map order | argmax fold invariant |
| C45 | update formulas as coded | count/mean merges right; variance: witness |
| C46,C47 | one coordinate update / full loop / gap formula | one-dimensional convexity, weak duality |
| C48 | centering, scaling, recombination | field algebra |
| C49 | SquareLoss + regularization | derivative of a polynomial; Alpha≠1: witness |
| C50 | loop generating `[pos,end)` ranges | as C01 |
| C51 | swaps on three parallel lists, final sort by index | permutation invariant |
| C52 | real tanh | derivative; sign: witness |
| C53 | fold over score history | fold invariant; all-negative history: witness |
| C54 | softmax over ℝ, argmax scan | positivity/sum; argmax invariant |
| C55,C56 | inductive type of kernel expressions | structural induction; WhiteKernel clone: witness |
| C57 | segment search + linear formula | sorted search, field algebra |
| C58 | Hermite form of each segment | field algebra, real derivatives |
| C59 | reader as any division of the bytes into chunks; parser as coded, panics explicit | round-trip induction over the variables; exact characterisation of the results for every chunking and every truncation |
| C60 | gradient clipping of `SGDOptimizer`, cell by cell | norm homogeneity |

## Properties added while the model grew

| Id | Property | Model | Proof idea |
|----|----------|-------|------------|
| C61 | Refitting a linear regression equals fitting a fresh one | heap model of C10 with `Fit` storing coefficients and intercept | unfolding of two successive fits; switched-off intercept: witness |
| C62 | Pipeline score is the score of its predictions | pipeline of C11 with abstract metric | induction over steps; target transform: witness |
| C63 | MultiLabelBinarizer round trip | table of label lists, width taken from the first row as coded | round trip over rectangular tables; ragged tables: witness |
| C64 | Variance helper divides by the number of rows | `NumpyLike.Var` with its divisor | field algebra; exact condition for correctness |
| C65 | MaxAbsScaler maps into [-1,1], is invertible and incremental | per-column maximum of absolute values, stored state across calls | max of append; panic and stale counter: witnesses |
| C66 | RobustScaler depends only on the data of the last Fit | scratch buffer of the previous fit kept as coded | equal-length overwrite; shorter/longer data: witnesses |
| C67 | KernelCenterer centres rows and columns | row and column means, loops over the stored size | sum algebra; other row counts: witness |
| C68 | Normalizer scales every sample to unit norm | loop bounds as coded for both axes | norm homogeneity; non-square panic |
| C69 | Binarizer thresholds every cell | flat data with stride | index arithmetic; strided views: general panic |
| C70 | Box-Cox power transform is invertible | real powers, spacing test as coded | real analysis; exact condition for the round trip |
| C71 | PowerTransformer.Transform leaves its input unchanged | cells written back into the input | unfolding; exact condition and witness |
| C72 | QuantileTransformer maps data monotonically into (0,1) | quantile table without sorting, search as coded | monotonicity of the piecewise interpolation |
| C73 | Averaging a binary score over labels | column slicing and flattening as coded | list equality; samples and micro: witnesses |
| C74 | Precision-recall curve | curve scan over sorted scores | scan invariant, counting |
| C75 | KNeighborsGraph | graph written cell by cell from neighbour lists | membership; distance mode: witness |
| C76 | DBSCAN uses the configured metric | call that drops the configured power | unfolding |
| C77 | KMeans.Fit terminates at a fixed point | Lloyd iteration with argmin ties to the smallest label | lexicographic descent over finitely many labellings |
| C78 | Nearest-centroid classifier assigns the class of the nearest centroid | centroid table and distance call as coded | constant distance with two or more features; with one feature every distance above 1 is infinite, so two queries on either side get the same class |
| C79 | KNN regression is a weighted mean of the nearest targets | weighted mean over the neighbour list | weighted-sum algebra |
| C80 | Class list and class counts agree | class list from map keys sorted, counts in map order | permutation argument; order witness |
| C81 | Every SVC training update improves the dual objective | one SMO step on the pair | quadratic in one variable along the constraint |
| C82 | SVC training terminates | outer loop with passes | strict increase over finitely many states bounded by C81 with progress threshold |
| C83 | Fitting an SVC always yields a usable model | selection of support vectors, zero-size matrix panics | all multipliers zero for one class |
| C84 | SVC score uses the labels it was fitted with | 0/1 prediction and accuracy | list counting |
| C85 | Every SVR training update reduces the pair's residuals | SVR pair step | piecewise quadratic algebra |
| C86 | GaussianNB can be fitted again; unknown labels are refused | priors and classes retained between fits | panic of the second fit; refusal of unknown labels |
| C87 | GaussianNB predictions follow Bayes' rule | log joint likelihood over ℝ | log/exp algebra to Bayes’ rule |
| C88 | ElasticNet reports how long coordinate descent ran | full coordinate-descent loop with counters | loop invariant |
| C89 | CrossEntropyLoss returns the gradient of the loss it reports | CrossEntropyLoss over ℝ | `HasDerivAt` of the loss along every coordinate |
| C90 | LogLoss returns the gradient of the loss it reports | LogLoss over ℝ | derivative; general inequality for features above 1 |
| C91 | SGDRegressor descends along the gradient of its loss | SGDRegressor direction | derivative of the penalised loss; witness family |
| C92 | LinFit returns the best epoch | LinFit epoch loop as fold over histories | fold invariant; epoch number off by one |
| C93 | Backpropagation writes the gradient of the loss it returns | forward and backward pass for any number of layers | chain rule by induction over layers; tanh and multi-label: general violation |
| C94 | Training stops exactly by the no-improvement rule | no-improvement counter, stopping test and optimiser trigger of fitStochastic as a recursion over the epochs | invariant relating the counter to the losses since the last stall; induction over the epochs |
| C95 | Optimisers perform the textbook updates | SGD and Adam updates of the network | closed forms by induction; several parameters: violation |
| C96 | A smaller last batch is treated like any other batch | batch buffers retaining older rows | sum splitting; violation for smaller last batch |
| C97 | Validation rows are not trained on | shuffle as exchanges on the row list | membership; exchange witness |
| C98 | Label decoding of the network inverts its label encoding | block offsets as coded | round trip for one output; several outputs: violation |
| C99 | Validation scores have their textbook range and meaning | r2 and accuracy of the network | sum algebra |
| C100 | Kernel matrices are positive semidefinite | kernel expressions evaluated over ℝ | Gram factorisation, Schur product, exponentials; WhiteKernel: witness |
| C101 | IsStationary means translation invariance | kernel expressions | structural induction; WhiteKernel: witness |
| C102 | The kernel gradient is the derivative with respect to Theta | kernel gradient slices | `HasDerivAt` by structural induction; violations |
| C103 | LogMarginalLikelihood is the log density of the training outputs | likelihood with Cholesky and solve as assumed-correct parameters; the kernel is CloneWithTheta(theta) as in the code | determinant and quadratic form of the factor; the clone is the rescaled kernel by C56 |
| C104 | The gradient of LogMarginalLikelihood is its derivative | gradient formula by traces, slices of the cloned kernel | derivative of inverse and log-determinant along the path of clones; explicit one-row witness for the noise level |
| C105 | The Gaussian process regressor fits and predicts | Fit/Predict with unset means and stale results | unfolding; general panics |
| C106 | RBF length scales belong to features | RBF with per-feature scales | field algebra |
| C107 | Interp2d is bilinear | slices through `Interp1d` | bilinear algebra; above range and single abscissa: violations |
| C108 | SGDOptimizer: momentum, decay and independence of entries | `SGDOptimizer` step on gonum vectors, cell by cell | closed form by induction over histories |
| C109 | Adam is bias-corrected | Adam branch | closed form by induction |
| C110 | Adaptive optimisers normalise by the gradients seen and descend | Adagrad, RMSProp, Adadelta branches | closed forms; descent by sign; first-step violation |
| C111 | BayesianRidge returns the ridge solution for the precisions it reports | `Fit` after preprocessing on real matrices, decomposition as parameter | normal equations through `V diag Vᵀ`, loop as a sequence of states; unique minimiser by completing the square |
| C112 | BayesianRidge updates its precisions by evidence maximisation | one round of the loop, `gamma` as the empty sum it is | comparison of fractions |
| C113 | BayesianRidge.Predict2 returns the predictive standard deviation | `Predict2` reading row 0 of `Sigma` | algebra; general construction of a negative value |
| C114 | PCA keeps the most informative directions | `Fit`/`Transform`, decomposition as parameter | trace identity; weights of an orthonormal frame lie in [0,1] and sum to k |
| C115 | PCA InverseTransform undoes Transform | `InverseTransform` with its inner dimensions | orthogonality; dimension mismatch |
| C116 | PCA fits depend only on settings and data | settings written back by `Fit` | case analysis |
| C117 | ExplainedVarianceRatio is a ratio of variances | ratios of squared singular values | algebra of centred columns; explicit decomposition as witness |
| C118 | Multi-output elastic net: every update is the best one for its feature | `Model/EnetMT.lean`: `enetCoordinateDescentMultiTask` over the reals, any order of the features | Cauchy–Schwarz reduces the row problem to one variable; invariant over sweeps and iterations; at a fixed point the optimality conditions hold and weak duality gives global optimality |
| C119 | Multi-output elastic net: the reported gap certifies the fit | same | weak duality with the residual scaled by `cons`; invariant that the gap belongs to the final state |
| C120 | Positive constrains multi-output fits | same; `positive` is an unused argument as in the code | negation for all targets |
| C121 | EnetPath: one certified fit per alpha | `Model/EnetFit.lean`: `alphaGrid`, `EnetPath` with one goroutine per alpha as interleavings of writes | each goroutine owns its cells, so any schedule gives the sequential result; C47/C119 per entry; logarithms cancel in the grid; strict descent of the first sweep for the non-null witness |
| C122 | ElasticNet is certified on the original data | `Model/EnetFit.lean`: `ElasticNet.Fit` with one output (`fitEN`) and with several (`fitMT`), on top of `Sk.Lin.preprocess`, `Sk.Enet.enet` and `Sk.EnetMT.enetMT` | cost with intercept = objective on centred data + n(b-b*)²/2, then C47 and C119 |
| C123 | WarmStart starts from the model found before | same, with the coefficients found in the struct as an argument | C46 started from the previous coefficients; the rescaling in `setIntercept` breaks it under `Normalize` |
| C124 | Logistic regression minimises a convex loss with its true gradient | `loss`, `grad`, `probas` over ℝ | Jensen for exp gives tangents of log-sum-exp; derivative through C93 |
| C125 | Fit depends on the values of X and Y only | `deltaLoop` over flat buffers with strides, `fitArgs` | loop invariant over written positions; out-of-range index for views |
| C126 | A refitted LogisticRegression predicts the new labels | `fit`, `predict` with the label binarizer; training is a parameter | decision logic with the lemmas on the binarizer |
| C127 | The fitted parameters are the best ones found | `fitLbfgs` as a fold over evaluated points | induction over the evaluations |
| C128 | MakeRegression returns the linear problem it describes | `makeRegression` over a stream of draws | closed form of the filling loops; loop over targets |
| C129 | MakeBlobs draws each sample around the centre of its label, reproducibly | `drawCenters` with fuel, `blobRows` with the schedule as a parameter | induction over draws; permutation of label positions by idxOf |
| C130 | Loaders return the cells of the file | `loadCsv`, `getXY` | induction on rows |
| C131 | Distances to and between rectangles | `Rectangle` over ℝ with gonum norms | coordinatewise bounds, attained by clamping; monotone norms |
| C132 | Splitting a rectangle gives two rectangles that cover it | `Rectangle.split`, `Rectangle.volume` | direct; sign of a product of exchanged differences |
| C133 | Row exchange and element access of General64 | `G64.at_`, `set_`, `swap`, `fastSwap`, `rowSlice` over memory | memory after k exchanges by induction; injective addresses |
| C134 | Copy and SumRows of General64 | `G64.copy` by kind of argument, `sumRows` | division with remainder of the cell number |
| C135 | Every MLP parameter has its own place in the packed vector | `views` of layer offsets | induction on the list of sizes |
| C136 | Hyperparameters out of range are refused | `validate` with NaN as none | case distinctions; Boolean logic |
| C137 | An MLPRegressor predicts the outputs of its network | `fitRegressor`, `predict`; training a parameter | direct |
| C138 | MLPClassifier predicts labels it was trained on | `fitClassifier`, `lbCells`; training a parameter | width of the output by induction on layers; first maximum of C98 |
| C139 | Shapes in MLP predictions | `affineRow` after gonum Dgemm, `writeLabels` over memory | sum over appended zeros; addresses |
| C140 | An MLP read from a file predicts what the file describes | `unmarshal`, `matchField` (json field matching) | mapM over layers; character lemma |
| C141 | Bookkeeping of MLP training | `fitLayers`, `fitArgs`, `epochLoss` | sum of batch sums |
| C142 | Tensors address their elements in row-major order | `newDense`, `at_`, `step` | mixed radix: positions of all indices are range(size), by induction on the shape |
| C143 | Gradient tensors of composed kernels hold the slices in order | `sumGrad`, `prodGrad`, `leafGrad`, `whiteGrad` by position in the data | division with remainder; loop writing distinct positions |
| C144 | Comparing tensors; bounds and nil clones of kernels | `diff3D`, `cloneNil`, `theta`, `bounds` | fold invariant; induction on kernels |
| C145 | Predictions arrive in the destination given by the caller | `toDense`, `fromDense`, `predict`, `predictNB` over a heap | copy and fill loops with distinct cells; fresh memory is separate from old |
| C146 | FromDense copies the matrix | `fromDense` | loop invariant for copying with distinct destinations |
| C147 | Text of matrices and check of their sizes | `matStr`, `matDimsCheck`; the number format is a parameter | splitOn after intercalate |
| C148 | Column means, deviations, dummy feature and the inverse of the normalizer | `denseMean`, `addDummy`, `meanStdDev`, `normalizerInverse` | algebra; 2(n-1)^2 = n^2 has no natural solution |
| C149 | The locked source serves concurrent users like a sequential source | state machine `step` with explicit lock and two writes per draw | invariant over all schedules |
| C150 | Activation functions and their derivatives | `Act.F`, `Act.Fprime` | derivative rules; one-sided derivatives |
| C151 | Fitting a clone of a scaler leaves the original as it was | Heap of parameter cells, objects with own fields and a pointer; the four scalers (one column) as instances with the allocation tests and the arithmetic of the code | simulation of the shared-memory machine by one in which every object owns its parameters (invariant: valid, unshared pointers); explicit runs for the violations |
| C152 | Score methods of the perceptrons and of the Gaussian process report the quality of the predictions | buffers with strides, r2Score64, accuracyScore64, the three Score methods, the validation score and Regressor.Score of the Gaussian process | index arithmetic on the buffers; out-of-range reads for views; fit_labels for early stopping |
| C153 | Matrix overrides behave as the matrices they stand for | MatConst, MatTranspose, MatOnesPrepended, MatRowSlice over dense matrices: Dims, At, Set, T | structural induction over the nesting; injectivity of row-major indices |
| C154 | Slices of a matrix are views of exactly that part | blas64.General with offset, length and capacity of the Go slice, the three slicing functions, the address of a cell | linear arithmetic on addresses; injectivity of addresses of a well-formed matrix |
| C155 | Grid search sets hyperparameters by name | FieldByNameFunc as a search by depth over the fields, the conversions of setParam, getParam, the loop of GridSearchCV.Fit over a point of the grid | characterisation of the search by depth, commutation of writes to different fields, induction over permutations |
| C156 | A neighbour estimator forgets earlier fits and owns its training data | Fit of NearestNeighbors, classifier and regressor as transitions of a state with the caller's matrices, the tree kept or replaced, the power and leaf size stored back, targets kept by reference or copied | invariant over the program (induction from the right) relating the stored settings to the settings as set; separate specification of settings and contents by folds over the program |
| C157 | A clone of a Gaussian naive Bayes classifier is independent of its original | objects with pointers to the matrices written in place, the classes and epsilon of each, and the object captured by the closure used for prediction | simulation between the heap and separate values: induction over the program with disjointness of the cells and self-reference of the closures as invariant |
| C158 | A support vector estimator predicts from its own settings and its last fit | constructor, PredicterClone, fit (kernel choice, gamma and iteration bound stored back, new slice of models, one output at a time) and Predict over objects with pointers to slices of models; training of one output as a parameter | simulation between heap and separate values by induction over the program |
| C159 | Clones of encoders, binarizers, imputers, discretizers, feature generators and PCA are independent of their originals | Instances of the object-and-heap model of C151 (Model/TransClone2.lean) around the fit functions of the existing models; LabelEncoder with a fixed number of columns; PCA with a fixed width, storage reuse of gonum's SVD.Factorize assumed; Shuffler, Binarizer, Normalizer, FunctionTransformer have no fitted slices or are left out; PowerTransformer left out. | Induction over programs from C151 instantiated; for the violations the general two-object program is executed symbolically, the code change follows from the rank characterisation of C12. |
| C160 | LBFGS training: the minimiser is given the loss and its gradient, and the trained network has the parameters found | State machine over the calls of the two closures given to gonum's optimize.Minimize (Model/MlpOpt.lean); the minimiser is any list of calls (sequential; Settings.Concurrent is not modelled), backprop enters through its loss and gradient functions (C93), weight decay as scaling of the evaluated point. | Induction over the call list; gradient from C93; decay by the chain rule and uniqueness of derivatives. |
| C161 | Batch normalisation leaves the loss alone and divides activations by their largest absolute value; gradients are those of the loss | Backward pass with optional cells (none = NaN or infinite) next to the plain one of C93 (Model/MlpOpt.lean); forward pass as the list of activation matrices; gonum's Gemm leaving out zero factors is assumed for the coefficient gradients (the theorem on inactive units is about intercepts and does not use it). | Fold invariant for the column maximum; induction over layers; C93 and uniqueness of derivatives for the violation. |
| C162 | PowerTransformer chooses its parameters by maximum likelihood | The two objective closures over the transforms of C25 and C70 and NumpyLike.Var on one column (Model/PowerFit.lean); NaN and infinite values are none; Brent's minimiser is not modelled. | Derivatives of the transforms (also at 0, from both sides), the sum of squares split around the mean, log t <= t - 1 for the optimum over the variance. |
| C163 | PowerTransformer: FitTransform equals Fit then Transform, cells are transformed independently, inputs stay as they are, clones are independent | Matrices as lists of columns with NaN cells; the worker buffers and where workers begin are explicit; choice of lambda and the scaler are parameters; InverseTransform is in C25. | Case analysis on the settings; induction over the columns; injectivity from C25; C151 for clones. |
| C164 | A clone of a perceptron is independent of its original | Objects with pointers to parameters, Go slices with capacities and append (Model/LogClone.lean), random sources by address; initialize and the training loop are parameters. | Simulation between the heap and copies that own everything, by induction over the program; exact contents of a shared array after append. |
| C165 | Clones of DBSCAN and KMeans are independent of their originals | DBSCAN.Fit of C32/C33 as an instance of the objects of C164; KMeans.Fit of C77 as an instance of C151. | Instances of the simulation of C164 and of C151; witness by evaluation in the kernel. |
| C166 | A grid search compares its candidates on the same splits, and can be repeated | Searches and splitters as objects with addresses of random sources (Model/SearchObj.lean); CrossValidate, setParam and the random generator are parameters; means, best fold and best candidate are the functions of C08, the splits those of C04. | Invariant: every source is of one kind and exists; a fit is shown to be a function of what is seen; induction over the program and over the candidates. |
| C167 | A clone of a pipeline stands alone; fitting a pipeline fits its steps in a chain | Steps, arrays of named steps and pipelines as a heap with addresses (Model/PipeObj.lean); the methods of the steps are parameters; clones of single steps are new structs. | Invariant that addresses exist; the steps of a clone are reached from it only, kept by every operation (induction over the program); the loop of Fit by induction over the steps. |
| C168 | Which transformers a pipeline can predict through | Every transformer type with its InverseTransform(nil, Y) and whether its method has the signature of the interface (Model/PipeInv.lean), as steps of the pipelines of C167; Fit and Transform are parameters. | Induction over the steps, from the characterisation of Predict in C167. |
| C169 | ConfusionMatrix uses the first label column only | internalConfusionMatrix with the loop over the columns, one LabelEncoder per column (Model/ConfusionMulti.lean). A prediction matrix with fewer columns than the truth is outside the model. | Both loops are one fold over the (row code, column code, weight) triples, which is the one-column loop of C28; sums over a flattened list. |
| C170 | A clone of a Gaussian process regressor is independent of its original and equal to it | Regressors with the address of their Alpha slice and a heap of slices (Model/GprClone.lean); kernels are values, writes through Theta() of a kernel are not modelled. | Structural induction for the self clone of kernels, induction over calls for isolation. |
| C171 | Score of linear models, neighbour estimators, support vector machines, naive Bayes and logistic regression | Score methods over an arbitrary prediction function of a row: destination matrices sized by the targets (zeros where nothing is written) or by the predictions, R2Score with its shape panic and the floor 1e-20 of the denominator, AccuracyScore. The decision function of linear models is explicit. (DBSCAN.Score and KMeans.Score are the constant 1.) | The score is rewritten as a sum over columns; nonnegative residual sums vanish together exactly if the rows agree. Accuracy by induction over the rows. For the unit, scaling by eps/(2 TSS) puts the total under the floor while the quotient should stay the same. |
| C172 | Training of a support vector machine ends at the optimality conditions | Existing training model (Model/Svm.lean), no new definitions. | Induction over the rounds of the loop: a round without violation leaves the state unchanged, so every sample was tested on the final state. Bound on the dropped terms; invariant of two states for the stuck training. |
| C173 | Ridge regression finds the minimum of the ridge cost for each output | optimize.Minimize as a parameter (per output), receiving loop as a fold over the arrival order, preprocessing and setIntercept from Model/Linear.lean. Ypred/Ydiff shared by concurrent evaluations are not modelled. | Fold over arrivals; expansion of the quadratic cost around a stationary point; splitting of the cost into centred cost and intercept error; explicit better coefficients for the violation. |
| C174 | Training of a support vector regressor ends | svrStep, svrUpdate and the loop of Model/Svm.lean (C38, C85). | Every accepted update lowers the dual objective by at least Tol^2 times half the kernel distance, and the objective is bounded below; for the violation a finite set of multipliers closed under a round with a change. |
| C175 | A fitted SGDRegressor minimises its penalised cost for each output | optimize.Minimize as a parameter (per output), sequential loop over outputs as a fold, sgdLoss/sgdGrad, preprocessing and setIntercept from Model/Linear.lean. Concurrent evaluations sharing regr.Coef are not modelled; the minimiser is assumed to reach a zero of the gradient it is given. | Fold over outputs; sign argument for the zeros of the gradient; expansion of the quadratic cost around a stationary point; shrinking the coefficients by an explicit factor lowers the penalised cost. |
| C176 | The number of outputs an estimator reports is that of its targets, so cross-validation scores predictions of the right shape | The fields read by GetNOutputs for every estimator as a sum type, the effect of Fit and PredicterClone on them, lines 39-48 and 80-86 of CrossValidate, target columns through a pipeline. Other panics of Fit are left out. | Invariant over the history of fits (label binarizer present only after a fit on labels, naive Bayes count 1); violations for all target shapes. |
| C177 | Shuffler can produce every arrangement of the rows | the exchanges made by Transform for an arbitrary drawn permutation (Model/Encode) | invariant over the exchanges: a row fetched once is never fetched again, so it only moves down; explicit transposition for the partial part |
| C178 | Fitting all outputs together gives each output its own minimum, and the reported error is that of the result | joint branch of LinFitGOM with the minimiser as a parameter (Model/LinFitGom) | the joint cost as a sum of costs per output; exchange of one column |
| C179 | The log losses are the mean cross-entropy, finite for probabilities 0 and 1, and fall when the targets get more probability | loss functions as sums over the cells (Model/Mlp, Model/Logistic) | the clamp as max/min; termwise comparison of the sums |
| C180 | Predict of the perceptrons fills the destination and nothing else | Memory and headers of BaseMat; where `predict` writes with and without a label binarizer; the dispatch on dynamic types in the three Predict methods | Loop invariants of the copies of BaseMat; index arithmetic of contiguous rows; violations for all views |
| C181 | MultiLabelBinarizer: encoding and decoding whole tables, whatever their type | All methods by the dynamic type of the argument, classes as interface values, sizes of 0 | Row by row from C63; sortedness of the classes for unseen labels |
| C182 | LinFit with a solver: what the mini-batches of an epoch optimise and what is reported | Losses with their nSamples argument as functions on lists of rows, mini-batch loop with shuffles and any solver as a fold that may panic, epochs with best and last values | Blocks of the mini-batch loop concatenate to the shuffled rows; sums over a permutation; induction over the epochs for best and last values |
| C183 | LinFit leaves the caller's options alone | Options in, route and options out | Cases of the decision; the stored fields |
| C184 | Optimisers by name, as minimisation methods, and for new parameters | Creators as settings, the two name tables, Run with gonum's methods as a parameter, SetTheta on the state of Model/Optimizer | Case distinction on the names; state of an update with t = 0 and t ≠ 0 |
| C185 | An interpolating function is determined by the points it was made from | The returned functions with the present contents of the caller's slices as an additional argument | Interpolation and derivative theorems of C57 and C58 applied to the new contents with the old slopes |
| C186 | Cross-validation with KFold scores models on rows they have not seen | KFold of C04 with the workers of C09 | Composition of the partition theorem with the slot theorem; sizes of folds; last write to the job's buffer |
| C187 | Networks and logistic regression start from Glorot-bounded, distinct, signed parameters | Memory as a list, the filling loops with their counter of draws, slices as offset and length; draws are parameters | Induction over the layers with the cells before the offset untouched; positions of the views tile the memory (C135) |
| C188 | A whole number as sample weight counts as so many copies of the sample, in any order | The existing models of metrics (Metrics, Ranking) and NaiveBayes; copies T writes every sample as often as its multiplicity | Every function is shown to depend only on weighted sums and on which rows occur; a sum over the copies is the sum weighted by multiplicity; the curve is determined by its thresholds |
| C189 | What a transformer learns does not depend on the order of the training rows | The existing models Scale, Encode, Label, Power of the fitting functions | Sums, minima, maxima, sorted lists and sets of values are invariant under permutation; state equality follows field by field |
| C190 | Only the ranking of scores and the order of labels matter | The existing models Ranking, Metrics, Label | The curve is determined by thresholds and weights above them; searches compare only, so they commute with a strictly increasing function |
| C191 | Scaling and binning do not depend on the unit of a feature | The existing models Scale and Encode | Minimum, maximum, mean, variance, sorted list and quantile commute with the affine map; the scale factors cancel |
| C192 | Reversed scores, exchanged roles and units in the scores | The existing models Ranking, Metrics | AUC as the Mann-Whitney statistic, where the two outcomes of a pair add up to one; the cells of the confusion matrix as weights of sets of samples; errors as means of losses, with a Cauchy-Schwarz inequality over lists by induction |
| C193 | In a chain of scalers only the last one matters, and scaling twice changes nothing | The existing model Scale | Every fitted scaler is an increasing affine map; C191 then says that the next scaler does not see it |
| C194 | Neighbour estimators reproduce their training data and ignore the order of rows and features, the origin and the unit | The existing models Neighbors and KnnPredict | The sorted list of (distance, target) is unique without conflicting ties, and all distances are multiplied by one number |
| C195 | GaussianNB ignores the order of rows and features, origins and units, and the names of the classes | The existing model NaiveBayes | All joint scores are multiplied by one positive factor, so the first greatest one and the posterior stay |
| C196 | What clusterings do not depend on | The existing models Dbscan and KMeans | The clustering specification of C32 was strengthened (clusters numbered by first core sample, border samples take the least cluster) until it has at most one solution; KMeans by induction over the rounds |
| C197 | LinearRegression finds the one best fit, whatever the order of rows, the coordinates and the units | The existing models Linear (fit, decision) and Metrics (r2Score) | Minimality gives the normal equations by a perturbation argument; residuals orthogonal to affine functions make the minimiser unique, and orthogonality is kept by the coordinate changes |
| C198 | Label transformers on rows and labels that were not fitted | The existing models Label and MlpFit (lbRow) | Induction over rows and columns |
| C199 | Fits of the elastic net agree up to their reported gaps | The existing model EnetFit | Strong convexity at the midpoint of the two models: both costs are within their gaps of the cost of the midpoint, and the parallelogram law turns this into the squared distance. |
| C200 | What a Bayesian ridge regression does not depend on | Model BayesRidgeFit: PreprocessData, the loop of BayesRidge, setIntercept; the decomposition is a parameter assumed to be one for the matrices at hand | The sequences of precisions and ridge solutions determine each other (uniqueness of the ridge solution), so they are equal step by step and so is the stopping round |
| C201 | Support vector machines with exchanged classes, reflected targets, moved samples | Model Svm: steps and training loop of svmTrain and svrTrain, models and predictions, the four kernels | A step commutes with reflecting the training variables (for SVR inside the box, where the clipping bounds are in order), hence whole runs do; the kernels are sums over features |
| C202 | Logistic regression has one optimum, which does not depend on coordinates and names | Model Logistic: probas and grad; Minimize is taken to end where the gradient is zero | The gradient is a monotone map: probabilities grow with their logits (logarithms of probabilities for softmax), so two zeros have equal coefficients and probabilities; zeros are carried to zeros by the moves |
| C203 | What a principal component analysis does not depend on | Model Pca: fit and transform with a decomposition as parameter | The sums of the first squared singular values are the greatest sizes in k directions (C114), hence unique; the change of basis between two decompositions commutes with the diagonal, so with a gap it keeps the leading subspace |
| C204 | Interpolation commutes with changes of units and with sums | Model Interpolate: Interp1d and CubicSpline with sort and solver as parameters | The line in force at a point is carried to the line in force at the image of the point; the spline's system is linear in the ordinates, scales with the gaps, and read backwards is the system of the mirrored points; uniqueness of its solution gives the rest |
| C205 | What the log marginal likelihood does not depend on | Model Kernels: lmlMatrix, lmlSlices, lml, lmlGrad; a Call collects the matrices gonum computes | Covariance and slices of the moved data are the same matrices with rows and columns rearranged; determinant, inverse and quadratic form are then the same; structural induction over kernels for the slices |
| C206 | A view of a wider matrix is transformed like a copy of it | Raw headers (rows, columns, stride, data), the offset loops `for j := 0; j < Rows*Stride; j += Stride` with fuel, column-major and row-major write loops with checked indices; the seven transformers as instances | The offset loop visits r*stride for each row r; nested loops are one sequence of writes to distinct positions; the result is then read off, and depends on cells only |
| C207 | Transformers and pipelines leave the caller's matrices alone and return matrices of their own | Memory of matrices with pointers; ToDense by argument type; the 19 Transform methods by what they read, allocate and hand back (contents computed are parameters); transformStep, Fit, Score, Predict, FromDense | A safe step only adds matrices to the memory (prefix order), so loops do; values: the loop on memory is simulated by the loop on values while X and Y are different places |
| C208 | Estimators behind a scaler | Pipeline model of C11 with a scaler step whose columns are the fitted scalers of C16, C18, C66; LinearRegression of C197; GaussianNB of C195. | The scaled tables are equal by C191, so all later steps see the same data; scalers are affine with positive slope (C193), so C197 and C195 apply. |
| C209 | DBSCAN with a larger radius, a smaller MinSamples or more samples | DBSCAN.Fit as for C32 (Model/Dbscan.lean), exhaustive search. | both fits are density clusterings (C32); densities grow with radius and samples, chains of core samples stay chains |
| C210 | How neighbours change with k, the radius and the training set | KNeighbors, RadiusNeighbors (Model/Neighbors.lean) and the predictions of Model/KnnPredict.lean, as for C39, C40, C44, C79. | k nearest lists are unique up to ties; counting entries below a distance; a sorted list starts with its entries below a bound |
| C211 | Elastic nets solved exactly | ElasticNet.Fit and the coordinate descent as for C46, C47, C122. | first-order conditions in each coordinate make the gap formula vanish; zero, or the soft-thresholded values, are an invariant of the sweeps |
| C212 | Ridge does not depend on how the data are presented | Ridge as for C173 (regularised linear regression with gradient minimiser). | the fitted model is the unique minimum of a strictly convex cost; costs of transformed data are equal under the matching change of coefficients; stationary points are linear in the targets |
| C213 | A larger penalty gives smaller coefficients and a larger training error | ElasticNet.Fit as for C122, logistic regression as for C124. | adding the two optimality inequalities; monotonicity of the gradient of the log loss |
| C214 | InverseTransform leaves the caller's matrices alone, returns matrices of its own and hands Y on | Places read, written and returned by the InverseTransform methods; what they compute is a parameter (modelled elsewhere). The user's function of FunctionTransformer is a parameter without assumptions. X of shape 0x0 for Normalizer is left out. | case analysis on the transformer; memory only grows at the end |
| C215 | What a network and its training do not depend on | The networks of Model/Mlp.lean over the reals; full batches. Names are a permutation of the inputs, of every hidden layer and of the outputs. | induction over the layers; sums over a permuted or repeated index; induction over the updates |
| C216 | Neighbour estimators returned by cross-validation predict from the rows of their split | Composition of Model/CrossVal.lean and Model/KnnPredict.lean: what Fit copies and what it keeps a view of. One output; search without tree. | the buffer of a job shows the last split it processed, whatever the interleaving; a sample is its own nearest neighbour (C194) |
| C217 | A fitted support vector machine minimises its cost up to its tolerance | Training loops of Model/Svm.lean; costs are separate definitions in Props/SvmOptimal.lean. | weak duality: feasible multipliers (C38) give a lower bound of all costs; the conditions of C172 bound the gap sample by sample |
| C218 | The kernels of support vector machines are positive semidefinite | Kernels of Model/Svm.lean over the reals; choice of kernel and gamma of Model/SvmState.lean. | closure of positive semidefinite matrices under sums, products and exponentials (C100); growth of cosh for the sigmoid; composition with C217 |
| C219 | PCA: orthogonal components, distances, nesting, kept sum of squares | Model/Pca.lean (as for C114). | V is orthogonal; a sum over the first components is at most the sum over all; C114 for the ratios |
| C220 | CubicSpline is the smoothest curve through its points | Model/Interpolate.lean as for C58; the integral and the competing functions are in Props/SplineSmooth.lean. | integration by parts on each piece, where the second derivative is a line; induction over the knots; natural ends |
| C221 | Training a linear model with the solver sgd approaches the least squares solution | Model/LinFit.lean (linFit, epochStep) joined with Model/Optimizer.lean (updateParams) as solver, Model/OptNames.lean (newSGD) for the default settings. | second-order expansion of the square loss, descent and telescoping along the epochs; 40*sqrt k/(10+sqrt k) bounds the sum of the step sizes; distance plus momentum/(1-momentum) times the last update as invariant |
| C222 | KDTree.Query returns only neighbours within the bound and marks missing ones with infinite distances | Model/KDMatrix.lean (scaledBound, fillRow, treeQuery) over query of Model/Neighbors.lean. | search invariant of Lemmas/KDQuery.lean with the given bound: what was pruned is beyond the bound or has k listed samples before it; filling of rows by induction |
| C223 | Neighbour estimators predict the same with the kd-tree as with the exhaustive search | Model/KnnTree.lean (usesTree, treeNeighbours, treeVotes, treeClassify, treeProba, treeRegress, classifyBy) over Model/KDMatrix.lean and Model/KnnPredict.lean. | the approximate search with a gap between the distances is exact (C41_eps_partial), lists of nearest samples with different distances are unique; weight of the filled-up places against the sum of all others |
| C224 | Multi-task elastic nets are solved exactly where a closed form exists, and independently of how they are solved | Model/EnetMT.lean (block, sweep, gapOf, loop, enetMT). | one-sided slopes at a minimum give the optimality conditions of each row of coefficients, these make the dual point feasible and the gap 0; exact values are fixed points of the block update; the objective at the middle of two points with the gap bound of C119 |
| C225 | What estimators predict between two rows and far from the training rows | Model/KMeans.lean (labels), Model/SvmState.lean (fit, predict, decision), Model/NaiveBayes.lean (jll, predict), Model/Logistic.lean (probas, fit, predict). | the compared scores are affine along the segment up to a term common to all classes; first maximum of such scores; exponential bound for the kernel values of far rows |
| C226 | PolynomialFeatures with LinearRegression recovers polynomials | Model/Poly.lean (powers, transformRow), Model/Linear.lean (fit, decision). | polynomials as sums over exponent vectors (each listed once, C20), full rank of the design matrix from rows that determine polynomials, exact recovery of affine targets (C197), vanishing on a grid (combinatorial Nullstellensatz) |
| C227 | KernelCenterer centres the features behind the kernel | Model/Scale.lean (kcFit, kcTransform). | closed form of Fit and Transform on matrices given by functions, bilinearity of the inner product, sums exchanged |
| C228 | Best constant predictions | Model/Metrics.lean (meanError, r2Score, accuracy), Model/Mlp.lean (logLoss). | bias-variance identity by induction over the targets, slope of the absolute error counted on both sides of a median, Gibbs' inequality from log x ≤ x - 1 |
| C229 | Error of linear interpolation | Model/Interpolate.lean (interp1d). | the line in force at a point (C57), the two end weights, convexity of g + M x^2/2 and of M x^2/2 - g |
| C230 | Training residuals, further features and further rows of linear and logistic regression | Model/Linear.lean (fit, decision), Model/Logistic.lean (grad, probas). | normal equations of the fit, orthogonality to affine functions of the rows, uniqueness of the best fit (C197) |
| C231 | Trainings of support vector machines agree, and only support vectors matter | Model/Svm.lean (svcStep, svrStep, loop). | monotonicity of the optimality conditions paired with the difference of the multipliers, Cauchy-Schwarz for the kernel form, duality gap on the remaining samples (C217), balance of the multipliers of the two classes |
| C232 | LabelBinarizer64 lists each label once and encodes it at its place | Model/LabelBuf.lean: Fit and Transform as loops over strided buffers with NaN labels, maps, out-of-range panics; sort.Sort is a parameter. | invariant of the registered classes (each number once), shape of a sorted list with NaN first, invariant of the written cells over columns and rows with injectivity of the positions |
| C233 | The losses give the gradient with any activation | Model/LinFit.lean (lossGrad, term), Model/LossAct.lean (values of the losses with any activation). | derivative of a sum over the rows and outputs of X·Theta by the chain rule (as in C49), uniqueness of derivatives |
| C234 | KMeans finds groups of rows that are apart | Model/KMeans.lean (nearest, labels, recompute, fitLoop, fit). | decomposition of squared distances to a mean (mean of squared distances less half the mean squared distance of pairs), uniqueness of the nearest centroid in the first two rounds, stability of the loop (C77) |
| C235 | DBSCAN and the neighbour predictors on groups of rows that are apart | Model/Dbscan.lean, Model/KnnPredict.lean, Model/Neighbors.lean. | from the specification of the clusters (C32): density of a row = weight of its group, chains stay in groups; from the specification of the k nearest rows (C44): one row of another target would need all rows of the target among k - 1 |
| C236 | How good a clustering KMeans finds | Model/KMeans.lean (nearest, labels, recompute, fitLoop, fit). | induction on the rounds of the loop: assignment to nearest centroids and taking means each do not increase the sum; fixed point (C77) for the rest |
| C237 | Scalers and power transforms keep the ranking of a feature | Model/Scale.lean, Model/Power.lean, Model/Ranking.lean. | induction on the chain; scalers are increasing affine maps (C193), Yeo-Johnson is strictly increasing (C25), Box-Cox by monotonicity of powers and logarithm; scores depend on the ranking only (C190) |
| C238 | Error of bilinear interpolation | Model/Interp.lean, as C107. | the result is a line between the values of two slices (C107); each slice is within the one-dimensional bound (C229), the line between the exact slice values too, and a convex combination of errors does not exceed their bound |
| C239 | Best and worst values of the scores, and how scores are related | Model/Ranking.lean, Model/Metrics.lean. | 1 minus the Mann-Whitney statistic (C29) is a sum of nonnegative pair weights; the average precision is a telescoping sum of recall steps whose first step is positive (C74); Cauchy-Schwarz for the errors; the denominator of R2 depends on the targets only |
| C240 | How far changed targets reach | Model/KnnPredict.lean, Model/Interpolate.lean, Model/Linear.lean, Model/Metrics.lean. | The neighbours do not depend on the targets, so both predictions are weighted means over the same samples (C39); the interpolants use the same two neighbours and mix their ordinates; the change of the fit is the orthogonal projection of the change of the targets onto the affine functions, so its square sum equals its product with that change, and the constants bound it below (Cauchy-Schwarz) |
| C241 | What changed targets, labels and predictions do to ridge regressions, votes and the accuracy | Model/LinFitGom.lean, Model/KnnPredict.lean, Model/Metrics.lean. | The difference of two stationary points is stationary for the difference of the targets; multiplying its equation by itself gives an equality of square sums. The neighbours do not depend on the labels, and at most m of them change their vote. The accuracy is a weighted share (C26) |
| C242 | Outliers and scalers | Model/Scale.lean. | The scaled values have sum 0 and at most n as sum of squares (C18); Cauchy-Schwarz for all values but one, and Chebyshev's argument. An empirical quantile is determined by how many values lie below and at most at it, and these numbers do not change |
| C243 | Margins and diagonal of the confusion matrix | Model/Metrics.lean. | The cells are the weights of the samples by true and predicted class (C28); summing over one of the two splits the weight of the samples by a value taken from a list without repetition |
| C244 | Number and order of the columns of PolynomialFeatures | Model/Poly.lean. | The generators enumerate the index vectors recursively by their first entry (Lemmas/Poly.lean); induction for their order and their number (Pascal's rule) |
| C245 | Interp1d keeps order and slopes; exchanged coordinates give the inverse | Model/Interpolate.lean. | Every value lies on the line through two neighbouring known points (C57, C204); two arguments either use the same line or have known points between them |
| C246 | Rows left out of the training of a linear regression | Model/Linear.lean, Model/LinFitGom.lean. | The fits minimise sums over the rows that differ by the left out rows; comparing both minima. One row: a row whose target is its prediction changes nothing (C230), and the fit is affine in the target |
| C247 | Training on several copies of every row | Model/Scale.lean, Model/Linear.lean, Model/LinFitGom.lean, Model/NaiveBayes.lean, Model/EnetFit.lean. | Sums and counts over the copies are multiples of those over the rows; quantiles and least squares fits are determined by ratios of these. Ranges: extrema depend on membership only. Elastic nets: the cost on the copies is the k-fold cost; strong convexity at the middle of the two models |
| C248 | Score, slopes and correlations of a linear regression | Model/Linear.lean, Model/Scores2.lean. | The normal equations split the variation of the targets; the score is that of the predictions divided by that of the targets. One feature: the normal equations solved |
| C249 | Columns after imputation | Model/Encode.lean, Model/Scale.lean. | The filled column is a permutation of the present values and copies of the statistic; copies of the mean add no deviation, copies of an empirical quantile leave it that quantile, copies of a most frequent value make it the only one |
| C250 | Scores of parts and of the whole | Model/Metrics.lean. | The scores are quotients of sums over the samples, and sums over a division are sums over the parts. R2: the sum of squares about the common mean is that within the parts plus that of the means |
| C251 | GaussianNB with common variances | Model/NaiveBayes.lean. | With common variances the quadratic terms in the row and the normalising constants are the same for all classes |
| C252 | How far the outputs of a network move | Model/Mlp.lean. | Induction over the layers; slopes of the activations by the mean value theorem |
| C253 | How far a support vector machine gets from its offset | Model/Svm.lean. | The multipliers are balanced (C37, C38), so the positive and the negative ones each amount to at most half of m C; leaving small ones out makes both parts smaller. The SVC part is shown to apply with a linear kernel; for the RBF kernel no trained SVC with so large an offset is exhibited |

## Disagreements between code and properties

Each of these is a theorem about the model (a general statement or a concrete witness). The positive part of the
property that does hold is the theorem with suffix `_partial` listed in the manifest.

* `Sk.Matrix.C03_matRowSlice_bound_violated` – C03 is violated by the bounds check of `MatRowSlice.At`: reading one row past the end of the view succeeds whenever the parent has that row.
* `Sk.Matrix.C03_matRowSlice_write_violated` – C03 is violated by `MatRowSlice.Set`: for every slice that does not start at row 0 and every cell of the view, the write either panics or leaves the cell of the view unchanged (it goes to row `i-start`).
* `Sk.Matrix.C03_row_slice_of_col_slice_violated` – C03 is violated by the row slice of a column slice: taking all the rows of a view on columns of a fresh matrix that leaves out the first column panics.
* `Sk.Split.C05_folds_overlap_violated` – C05 is violated, in the strongest way: whatever the number of rows `N ≥ 2`, whatever the number of splits `2 ≤ n ≤ N`, shuffling or not, there are draws of the random generator for which some row is in the test set of two different splits (so, the sizes summing to `N`, another row is never tested).
* `Sk.Search.C07_empty_grid_violated` – C07 is violated for the empty grid: the product of no list is one (empty) assignment; none is returned.
* `Sk.Search.C07_empty_values_violated` – C07 is violated for empty value lists: the parameters visited before an empty list are forgotten, so the result depends on the iteration order of the map.
* `Sk.Search.C07_order_dependent_violated` – C07 is violated for empty value lists: for every grid with values for all its parameters, adding a parameter without values leaves the assignments as they were when the map is iterated with that parameter first, and removes them all when it comes last.
* `Sk.Search.C08_nan_first_violated` – C08 is violated by NaN: if the first candidate's score is NaN, it is reported as best whatever the other scores.
* `Sk.CrossVal.C09_default_kfold_panics_violated` – C09, violated for the default splitter. `KFold` with `NSplits = 0` documents a default of 3 splits and produces 3, but announces 0 to `CrossValidate`, which then panics, whatever the data.
* `Sk.CrossVal.C09_retained_training_data_violated` – C09, violated for estimators that keep a reference to their training matrices (the `Predicter` interface allows it and `Fit` receives views of a scratch buffer that the job reuses): with one job and two splits, after `CrossValidate` has returned, the estimator of split 0 sees the training rows of split 1.
* `Sk.LinClone.C10_clone_isolation_violated` – C10 is violated: fit a model on `d1`, clone it, fit the clone on `d2`: the original now predicts with the coefficients of `d1` and the intercept of `d2`.
* `Sk.LinClone.C10_crossvalidate_fitted_violated` – Cross-validating an already fitted regression: the estimator of the first fold ends up with the intercept of the second.
* `Sk.Label.C12_support_violated` – C12, Support is wrong otherwise. Two labels seen once each, the larger first: `Support` reports 2 for the smaller one, because the slot freed for it still holds the count of the larger one.
* `Sk.Label.C14_inverse_break_violated` – C14 violated: an invalid code in one column also erases the following columns of its row, whatever their codes: they stay at the initial zero; and the code equal to the number of classes panics instead of giving NaN.
* `Sk.Label.C14_unknown_violated` – C14 is violated for every unknown label below the largest fitted one: it receives exactly the code of a fitted label, the smallest one above it, and `InverseTransform` then returns this other label.
* `Sk.Label.C15_neglabel_violated` – C15, `NegLabel` is not used. The cells of the classes other than the label hold 0: for labels of which there are at least two, a row contains 0, and contains `NegLabel` only where that is 0 or `PosLabel`.
* `Sk.Label.C15_poslabel_violated` – C15 is violated for a negative `PosLabel` and at least two labels: the zeros left in the other cells are larger, and every label is decoded as another one.
* `Sk.Label.C15_two_columns_violated` – C15 is violated with two output columns, for all data: the column offset is advanced twice per column. If the first column has at least as many classes as the second, the first is decoded and the second gets zeros; otherwise the call panics (slice beyond the data).
* `Sk.Scale.C19_features_violated` – C19 is violated for several features: the second `PartialFit` panics, whatever the data.
* `Sk.Scale.C19_variance_violated` – C19 is violated for the variance: from the exact statistics of the previous rows `ys` and a new batch `xs`, the code returns the true variance of all rows plus `4·Σys·Σxs/N²`; it is right only if one of the two sums is zero.
* `Sk.Encode.C21_inverse_violated` – The recovery claim is violated: values 3 and 5 decode to 0 and 1.
* `Sk.Encode.C22_inverse_strided_violated` – C22 violated on views. On every view whose stride exceeds its number of columns (its data ends with the last cell of the last row), `InverseTransform` panics for every permutation that does not leave the last row in place: the loops run over the stride.
* `Sk.Encode.C23_all_missing_violated` – C23 violated for all-missing columns. A column without present values stays entirely missing with the mean strategy, panics in `Fit` with the median strategy, and is filled with 0 by most_frequent.
* `Sk.Encode.C24_onehot_violated` – C24 violated by the encoding "onehot": `Transform` returns no matrix at all.
* `Sk.Encode.C24_quantile_violated` – C24 violated by the default strategy. `Fit` with the quantile strategy panics on every column that is not already sorted.
* `Sk.Power.C25_violated` – C25 violated at lambda 0. Every non-negative value is transformed to NaN, and the inverse maps every non-negative number to 0 (instead of `exp x - 1`): the tests compare with a spacing that is always 0.
* `Sk.Metrics.C27_weighted_violated` – C27: "weighted" is violated. The average "weighted" ignores the supports: for all data it returns what "macro" returns; on the witness the support-weighted mean of the recalls (which is the accuracy, 3/4) differs from the returned 1/2.
* `Sk.Metrics.C28_unknown_violated` – C28 is violated for predicted labels absent from the truth. With true labels `a < b`: a prediction `v` strictly between them is counted as a prediction of `b`; a prediction above both moves the sample of true class `b` to the last cell of row `a`, and makes the function panic for the sample of true class `a`.
* `Sk.Metrics.C31_constant_violated` – C31 is violated by constant targets: when the truth is constant, predicting it everywhere (the mean predictor) scores 1, not 0.
* `Sk.Metrics.C31_weights_violated` – C31: sample weights are violated by `MeanSquaredError` and `MeanAbsoluteError`: whatever the column of weights, if the first weight is nonzero the result is the unweighted one; if it is zero the result is NaN; and with two outputs a column of weights makes them panic.
* `Sk.Dbscan.C32_one_feature_violated` – C32 is false with a tree and one feature. Samples 0, 900 and 2500 with the default metric, `Eps = 40`, `MinSamples = 1`: for the distance of the library (the square root of the difference, see C43) the first and the second, and the second and the third sample are neighbours; the exhaustive search finds one cluster, the tree finds noise only.
* `Sk.Dbscan.C33_refit_violated` – C33 is false for a second `Fit`. Whatever the second data set, the core samples of the first one are still reported.
* `Sk.Dbscan.C33_threshold_violated` – C33 is false at the threshold. On every data set, a sample with exactly `MinSamples` neighbours is not reported as core sample.
* `Sk.Svm.C36_zero_violated` – C36 violated: with cache size 0 (capacity 0) nothing is ever evicted, so the number of entries is the number of distinct pairs asked for.
* `Sk.Neigh.C41_one_feature_violated` – C41 is false with one feature. Samples 10, 0 and 4, leaf size 1, query 6.9, `k = 1`, `p = 2`: the tree answers with sample 0 (10, at 3.1) although sample 2 (4) is at 2.9: the cell of samples 1 and 2 is discarded because its squared distance is compared with the distances of the samples, which are not squared when there is one feature.
* `Sk.Neigh.C41_zero_violated` – C41, `k = 0`: a query of a constructed tree for no neighbour panics, whatever the data (the exhaustive search returns nothing).
* `Sk.Neigh.C42_repeated_violated` – C42 is false with repeated values. One feature, one sample `a` and `leafSize + 1` (at least two) samples `b > a`: the construction never returns, whatever the number of nested calls allowed.
* `Sk.Neigh.C43_one_feature_violated` – C43 is false for one feature: for every finite `p` other than 1 (the default is 2) and every pair at distance neither 0 nor 1, the value is not `|a - b|`.
* `Sk.Knn.C44_stale_violated` – C44 violated: `PredictProba` leaves in place the former contents of the caller's row for every class that none of the neighbours has.
* `Sk.NB.C45_variance_violated` – C45, violated: without smoothing, after two batches the stored variance of a feature is the variance of all the samples of the class exactly when the two batches have the same mean for it; otherwise it is strictly too small.
* `Sk.Enet.C47_no_iteration_violated` – C47, violated for `MaxIter = 0`: the reported gap is then the tolerance plus one, whatever the data. For every feature matrix with a non-zero column, all penalties, tolerances and starting coefficients there are targets for which some other coefficients (as nonnegative as the starting ones) improve the objective by more than that.
* `Sk.Lin.C48_constant_column_violated` – C48, violated: with `FitIntercept` and `Normalize`, a constant feature makes the coefficients undefined (division by zero: `NaN`), whatever the solver.
* `Sk.Lin.C49_square_lasso_violated` – C49, violated: with `L1Ratio = 1` (lasso penalty) and one output, the gradient is wrong in every penalised cell that is not zero unless `Alpha = 2`.
* `Sk.Lin.C49_square_ridge_violated` – C49, violated: with a positive `Alpha` other than 1 and `L1Ratio = 0`, the gradient written by `SquareLoss` is wrong in every penalised cell that is not zero, for every data set.
* `Sk.Mlp.C52_tanh_derivative_violated` – C52, violated: for `tanh`, backpropagation multiplies the deltas by the opposite of the derivative of the forward function, never by that derivative.
* `Sk.Mlp.C52_tanh_value_violated` – C52, violated: the activation named `tanh` is the opposite of the hyperbolic tangent, which it equals at 0 only.
* `Sk.Mlp.C53_nonpositive_violated` – C53 violated for scores that are not positive (a coefficient of determination can be negative): on a new network, if no epoch's score is above 0 the fitted parameters are all 0, not those of any epoch.
* `Sk.Mlp.C53_refit_violated` – C53 violated when a network is fitted again: the best score of the first fit is kept while the parameters it belonged to are discarded, so if the second fit's scores do not exceed it the second fit leaves all parameters 0.
* `Sk.GP.C56_exponent_sum_violated` – C56 violated by sums and products with an exponentiation: `Theta()` and `CloneWithTheta` call `Exponentiation.hyperparameters`, which does not return.
* `Sk.GP.C56_exponent_violated` – C56 violated by exponentiation: the clone is the clone of the base kernel, without the exponent.
* `Sk.GP.C56_fixed_operand_violated` – C56 violated by sums and products whose second operand is fixed: cloning panics for every `theta` of the right length.
* `Sk.GP.C56_white_violated` – C56 violated by the noise kernel: its clone keeps the noise level whatever `theta` is.
* `Sk.Interp.C57_nan_end_violated` – Outside these hypotheses: if the ordinate of the smallest abscissa is NaN, `Interp1d` does not even pass through the next point.
* `Sk.Octave.C59_chunks_violated` – C59 violated: every well formed file is refused by some reader (one that returns the first five bytes first).
* `Sk.Octave.C59_documentation_violated` – C59 violated: a variable with a documentation string (of bytes other than 0xff) makes reading panic: the string is not skipped.
* `Sk.Octave.C59_truncation_violated` – C59 violated: a file cut after one of its variables, or just after the length of the next name, is accepted without a report and the rest is missing.
* `Sk.LinClone.C61_refit_violated` – C61 is violated without intercept: after a fit with intercept, switching `FitIntercept` off and refitting keeps the old intercept, whereas a fresh model has intercept zero.
* `Sk.Pipeline.C62_score_violated` – C62 is violated by target transforms: whatever the transforms of the targets and their inverses, the score is that of the value `z` of the last step, before the inverse transforms that lead from it to the prediction.
* `Sk.Label.C63_ragged_violated` – C63, ragged tables. For tables whose rows have different lengths (the declared use, an iterable of iterables) the width of the first row decides: a shorter row panics, the labels of a longer one beyond that width make no difference.
* `Sk.Scale.C64_numpy_var_violated` – C64 is violated for every column that is not constant, as soon as the numbers of rows and columns differ.
* `Sk.PrepHelpers.C64_std_violated` – C64 is violated by every column that is not constant in every matrix with another number of columns than rows; variance and standard deviation depend on the other columns: with twice as many columns the variance halves.
* `Sk.Scale.C65_maxabs_violated` – C65 is violated in two ways: `PartialFit` on a new scaler panics, and a second `Fit` keeps counting the rows of the first one in `NSamplesSeen`.
* `Sk.Scale.C66_refit_violated` – C66 is violated when the scaler is fitted again: with more rows the call panics; with fewer rows the result is that of a first fit on the new rows together with the largest values of the previous column, as many as rows are missing.
* `Sk.Scale.C67_rows_violated` – C67 is violated for kernels of other samples: the result always has as many rows as columns; a kernel with fewer rows gets spurious zero rows, one with more rows panics.
* `Sk.Scale.C68_axis1_violated` – C68 is violated: with the default axis, every matrix that is not square panics.
* `Sk.Scale.C69_stride_violated` – C69 is violated on every view of at least two rows whose stride is larger than its width (some columns of a wider matrix): the call panics.
* `Sk.Power.C70_violated` – C70 violated: every value strictly between 0 and 1 is transformed to a number whose inverse is NaN, for every lambda.
* `Sk.Power.C71_violated` – C71 violated: for every lambda other than 1, `Transform` changes every cell of the caller's data that is not 0, hence every column with such a cell.
* `Sk.Power.C72_columns_violated` – C72 violated for columns from `nq` on: the output is constantly 0, whatever the data.
* `Sk.Power.C72_ties_violated` – C72 violated for ties at the minimum: on a sorted column that starts with a tie, its smallest value is mapped to NaN, for every number of quantiles whose first two quantiles coincide.
* `Sk.Power.C72_unsorted_violated` – C72 violated for unsorted columns: after `Fit` on any strictly decreasing column, `Transform` maps every value to 0; the quantiles are not mapped to their positions and the order of the values is lost.
* `Sk.Rank.C73_micro_weights_violated` – C73: "micro" with weights is violated. Cells are laid out row by row but weights block by block: unless all weights are equal, the weights given to the metric are not those of the samples of the cells, for all labels, scores and metrics.
* `Sk.Rank.C73_samples_violated` – C73: "samples" is violated. It slices columns, not rows: with more samples than labels (at least two labels of 0/1) it panics whatever the metric.
* `Sk.Neigh.C75_graph_distance_values_violated` – … and in general every entry written in "distance" mode is 0 or 1, never a distance: a neighbour at a distance other than 0 and 1 is not represented.
* `Sk.Neigh.C75_graph_distance_violated` – C75 is false for the "distance" mode. The truncated distance is used as a column number. Here the samples 0, 2, 4 on a line: sample 1 (at distance 2 from the query) gets 0 and sample 2 (at distance 4, not among the 2 neighbours) gets the value 1.
* `Sk.Dbscan.C76_power_violated` – C76 is false. The power configured for a Minkowski metric has no effect on `DBSCAN.Fit`.
* `Sk.Knn.C78_one_violated` – C78 violated with one feature too: whenever two classes have different means, there is a query for which a class is predicted though the mean of another class is nearer.
* `Sk.Knn.C78_violated` – C78 violated: with two or more features the class predicted does not depend on the query; hence, when there are two classes, the centroid of some class is itself assigned another class.
* `Sk.Knn.C80_violated` – C80 violated: as soon as two classes have different counts, for some iteration order of the map the counts are not those of the classes at the same positions.
* `Sk.Svm.C83_single_class_violated` – C83 violated: when all labels are equal, training leaves all multipliers at zero, and building the model panics: no single-class data set can be fitted.
* `Sk.Svm.C84_score_violated` – C84 violated: predictions are 0 or 1. So for labels ±1, those the classifier must be fitted with, every sample labelled -1 counts as wrong: on any labelled samples the score is at most the share of the samples labelled 1.
* `Sk.NB.C86_refit_violated` – C86, violated: once an estimator has been fitted, calling `Fit` again panics, whatever the data.
* `Sk.Enet.C88_count_violated` – C88, violated: with a tolerance of 0 the loop never stops early, and the count reported is one more than `MaxIter`, for all data.
* `Sk.Lin.C90_log_violated` – C90, violated: the gradient written by `LogLoss` ignores the features. For 0/1 targets with at least one 1, it is wrong for every feature whose values are all larger than 1, at every point.
* `Sk.Lin.C91_sgd_ridge_violated` – C91, violated: the ridge part of the direction is a multiple of the data gradient instead of the coefficient: at an exact fit it is zero however large the coefficients are, while the penalised loss has slope `alpha * c_j / n`.
* `Sk.Lin.C91_sgd_violated` – C91, violated: with two samples or more it is not the gradient, except where the gradient vanishes.
* `Sk.Lin.C92_epoch_count_violated` – C92, violated: the epoch number reported by `LinFit` is one more than the number of epochs run.
* `Sk.Mlp.C93_multilabel_violated` – C93, violated: for two outputs or more and 0/1 targets the output is a softmax even when several targets of a row are 1 (multi-label data); then, for every network, data set and activation, the written gradient is not the gradient of the returned loss.
* `Sk.Mlp.C93_tanh_violated` – C93, violated: for a `tanh` network with one hidden layer the gradient written for the first layer has the wrong sign; the written gradient is not the gradient of the loss unless its first layer vanishes.
* `Sk.Mlp.C94_stale_count_violated` – C94 violated with early stopping when a network is fitted again: the number of epochs without improvement left by the first fit is not reset, so the second fit stops after its first epoch as soon as that epoch's score is below the first fit's best plus `tol`.
* `Sk.Mlp.C95_adam_violated` – C95 (Adam) violated for several parameters: of two parameters with the same value and the same non-zero gradient, the first is moved differently from the second already in the first update (for every `β1, β2` in (0,1) with `1+β2 ≠ (1+β1)²`, as the default 0.9 and 0.999).
* `Sk.Mlp.C96_intercept_violated` – C96 violated for the intercepts: with a last batch of `r` rows smaller than the batch size, the intercept gradient is the batch's sum plus the sum of the deltas that the previous batch left in the other rows, over the batch size; it differs from the mean of the batch's own deltas whenever the left-over rows' sum is not `(B/r - 1)` times the batch's.
* `Sk.Mlp.C96_loss_violated` – C96 violated for the loss: the square loss returned for a last batch of `r` rows is `r/B` times the mean loss of the batch.
* `Sk.Mlp.C97_leak_violated` – C97 violated: rows held out for validation in one epoch are trained on in another. For any data and any validation size below the number of rows, an exchange that shuffling can make turns the last validation row into the first training row of the next epoch.
* `Sk.Mlp.C98_panics_violated` – C98 violated: with a first output that has fewer classes than the second, decoding a row panics.
* `Sk.Mlp.C98_two_outputs_violated` – C98 violated for two outputs, the first with at least as many classes as the second: the second output is always decoded as 0, whatever its columns say.
* `Sk.GP.C100_white_violated` – C100 violated: equality up to a tolerance is not transitive, so the noise kernel with any positive level is not positive semidefinite on the three rows `0, 1e-8, 2e-8`.
* `Sk.GP.C101_white_violated` – C101 violated by the noise kernel, which says it is stationary: the rows `0` and `2e-8` are different, but equal after a translation by 10.
* `Sk.GP.C102_anisotropic_violated` – C102 violated by an anisotropic `RBF`: one slice whatever the number of length scales.
* `Sk.GP.C102_exponent_violated` – C102 violated by exponentiation: for the square of a constant `v` the derivative with respect to `log v` is `2 v²`, the code returns `2 v³`.
* `Sk.GP.C102_white_violated` – C102 violated by a noise kernel on equal rows: the entry of the gradient is zero, the derivative is the noise level.
* `Sk.GP.C103_exponent_violated` – C103 violated for exponentiations: the covariance is that of the base kernel, without the exponent; for instance a constant kernel of value 4 squared has covariance 4 instead of 16.
* `Sk.GP.C103_fixed_operand_violated` – C103 violated for a sum or product whose second operand is fixed: `LogMarginalLikelihood` panics for every `theta` of the right length.
* `Sk.GP.C103_white_violated` – C103 violated for a free noise level: the covariance is that of the old noise level, whatever `theta` says.
* `Sk.GP.C104_anisotropic_violated` – C104 violated for an anisotropic `RBF`: the gradient has one entry whatever the number of length scales.
* `Sk.GP.C104_white_violated` – C104 violated for a free noise level `s`: on one training row with output `y`, the value does not depend on `theta` at all, yet the gradient returned is not zero unless `y² = s + alpha`.
* `Sk.GP.C105_alpha_columns_violated` – C105 violated: with one `alpha` per output column, which `Fit` accepts, the log marginal likelihood panics when there are more rows than columns.
* `Sk.GP.C105_alpha_violated` – C105 violated: `Fit` panics for one `alpha` per training row, unless there are as many output columns as rows.
* `Sk.GP.C105_outputs_ignored_violated` – Even with `YtrainMean` set to zero by the caller, the prediction does not depend on the training outputs: it is `k(x, X) alpha` instead of the posterior mean.
* `Sk.GP.C105_predict_violated` – C105 violated: after `Fit`, `Predict` panics for every kernel, training set and new rows, because `YtrainMean` is never set.
* `Sk.GP.C105_unfitted_violated` – C105 violated: before `Fit`, `Predict` returns whatever the matrix passed for the result held, instead of zeros.
* `Sk.Interp.C107_above_violated` – Above the greatest abscissa the last patch is not continued (as it is below the smallest): the value no longer depends on `x`.
* `Sk.Interp.C107_one_abscissa_violated` – With all points at one abscissa the first point is left out of the second slice: two points, enough for `Interp1d`, panic.
* `Sk.Opt.C110_first_step_violated` – C110 violated: the first step of Adagrad and of RMSProp is not normalised: it is `-StepSize` times the gradient, however large that is.
* `Sk.Opt.C110_rmsprop_violated` – C110 violated: while gradients stay within `[-1, 1]` RMSProp never normalises: it is gradient descent with a constant step.
* `Sk.Bayes.C111_few_samples_violated` – C111 violated: with at most as many samples as features `Fit` panics, for all data.
* `Sk.Bayes.C111_reported_violated` – C111 violated: the reported precisions do not go with the coefficients. Whenever the coefficients are not zero and the last update changed the noise precision, the coefficients are not the ridge solution for the reported `Alpha` and `Lambda`.
* `Sk.Bayes.C112_update_violated` – C112 violated: unless `X` is zero, the weight precision becomes too small in every round (the effective number of parameters is taken to be zero), and the noise precision too large whenever the residual sum of squares is at least 1 (its root is used).
* `Sk.Bayes.C113_negative_violated` – C113 violated with several features: if the covariance of the first feature's coefficient with another one is negative, the "standard deviation" is negative for some row.
* `Sk.Bayes.C113_one_feature_violated` – C113 violated with one feature: the result is the standard deviation only where that is 1.
* `Sk.Bayes.C113_uncentred_violated` – C113 violated without `Normalize`: rows are not centred although the model was fitted to centred data, so the value at the mean row, where the predictive variance is smallest, is larger than that variance `1/alpha` for every mean row that is not zero (one feature).
* `Sk.Pca.C114_few_rows_violated` – C114 violated: with fewer rows than columns `Fit` panics, for all data.
* `Sk.Pca.C115_reduced_violated` – C115 violated: with fewer components than columns, `InverseTransform` panics on every transformed matrix.
* `Sk.Pca.C116_refit_violated` – C116 violated: with the default settings the number of columns of the first data set is kept: fitted again on more columns the estimator keeps fewer components than a new one, on fewer columns every `Transform` panics, for all data.
* `Sk.Pca.C117_uncentred_violated` – C117 violated: data are not centred. If the second column is constant with a large value, the first component follows that column: it has variance zero and ratio above one half, whatever the other column (two rows `(t,a)` and `(-t,a)` with `a > t > 0`).
* `Sk.EnetMT.C119_count_violated` – C119, violated: with a tolerance of 0 the loop never stops early, and the iteration count reported is one more than `MaxIter`, for all data.
* `Sk.EnetMT.C119_no_iteration_violated` – C119, violated for `MaxIter = 0`: the reported gap is then the tolerance plus one, whatever the data; here the objective can be improved by more.
* `Sk.EnetMT.C120_ignored_violated` – C120, violated: with several outputs `Positive` has no effect at all.
* `Sk.EnetMT.C120_negative_violated` – C120, violated: with one sample, one feature and no regularisation, the fit returns the targets whatever their sign, `Positive` set or not.
* `Sk.EnetFit.C121_dropped_violated` – C121, violated: alphas beyond `NAlphas` are dropped.
* `Sk.EnetFit.C121_null_violated` – C121, violated: the largest alpha of the automatic grid does not depend on the correlation of features and target, so it need not be one at which all coefficients vanish. For one sample whose input and target are both `t > 2`, the coefficient at the largest alpha is not zero, under any schedule.
* `Sk.EnetFit.C121_padded_violated` – C121, violated: with fewer alphas than `NAlphas`, the missing ones are fitted with alpha 0, that is without any regularisation.
* `Sk.EnetFit.C122_positive_violated` – C122, violated: with several outputs and `Positive`, the fitted coefficients are the targets whatever their sign (one sample, one feature, no intercept, no regularisation).
* `Sk.EnetFit.C123_new_violated` – C123, violated: on a new estimator (no coefficients yet) a fit with `WarmStart` panics, whatever the data.
* `Sk.EnetFit.C123_normalize_violated` – C123, violated: with `Normalize`, a warm start does not start from the model found before: even a refit with no iteration divides every coefficient once more by the spread of its feature.
* `Sk.Logistic.C124_clamp_violated` – C124 violated where probabilities are clamped. One output, all rows of class 1, all probabilities below the bound `hmin` to which the loss raises them: the loss (without penalty) is the same for all such parameters, while the gradient given to the minimiser is not zero; so it is not the gradient of the loss, and the loss does not tell these parameters from better ones.
* `Sk.Logistic.C124_multilabel_violated` – C124, violated: with several labelled output columns (or any 0/1 targets with more than one 1 in a row) the model is one softmax over all columns. The loss does not change when the same number is added to all intercepts, yet the intercept gradients sum to `-(Σ_i (s_i - 1))/n`, `s_i` the sum of the targets of row `i`: the computed gradient is zero nowhere, whatever the data and the parameters.
* `Sk.Logistic.C125_type_violated` – C125, violated: a dense `X` with a `Y` of another matrix type (a vector, a transpose, …) makes `Fit` panic, whatever the values.
* `Sk.Logistic.C125_view_violated` – C125, violated: when `Y` (0/1 labels) is a view of some columns of a wider matrix, `Fit` panics for every data set of two rows or more: the probabilities are indexed with the stride of `Y`.
* `Sk.Logistic.C126_refit_violated` – C126, violated: an estimator fitted first on labels that are not all 0 and 1 and then on 0/1 labels keeps the classes of the first fit. With two or more distinct labels in the first fit, every prediction after the second panics; with one, every prediction is that old label.
* `Sk.Logistic.C126_two_columns_violated` – C126, violated for two label columns, whatever the training does: the classes are those of each column, but the prediction of the second output is always 0 (first column with at least as many classes as the second) or every prediction panics.
* `Sk.Logistic.C127_curve_violated` – C127, violated: after fitting again the loss curve still starts with the losses of the earlier fit.
* `Sk.Logistic.C127_last_violated` – C127, violated: whenever the last point evaluated (for instance the trial step at which `MaxIter` evaluations are reached) is worse than an earlier one, the fitted parameters are the worse ones.
* `Sk.Datasets.C128_bias_violated` – C128, violated: a bias of another type, for instance the `int` that the literal 5 is in a Go map of options, is ignored without notice.
* `Sk.Datasets.C129_box_violated` – C129, violated: with a box whose bounds are equal or in the other order (which the absolute value in the radius seems to allow for) no draw is ever accepted: the call does not return.
* `Sk.Datasets.C129_columns_violated` – C129, violated: when the centres are given as a matrix whose number of columns is not `NFeatures` (2 if left out) the call panics, in a goroutine.
* `Sk.Datasets.C129_config_violated` – C129, violated: an empty configuration is written to, so that a second call with it does not get the documented defaults from scratch but the values left by the first.
* `Sk.Datasets.C129_schedule_violated` – C129, violated: the labels are not reproducible with a given `RandomState`. For any division of the samples between two goroutines and any two schedules running one before the other there are draws (0, then 1 from the point where the second goroutine starts) for which the label of sample 0 differs.
* `Sk.Datasets.C130_outputs_violated` – C130, violated for several output columns (not reached by the exported loaders, which ask for one): every output is a copy of the first.
* `Sk.Rect.C131_order_violated` – C131, violated: the distance functions panic for every other order `p`, although they take any number.
* `Sk.Rect.C132_split_violated` – C132, violated: the two rectangles made by `Split` have their bounds exchanged. Whenever the cut is strictly inside, neither contains any point (so together they do not cover the rectangle), whatever the rectangle, axis and cut.
* `Sk.Rect.C132_volume_violated` – C132, violated: in an odd number of dimensions they add up to minus the volume.
* `Sk.G64.C133_at_violated` – C133, violated: a column number past the last column is not refused. In every row but the last, reading (or writing) column `stride` accesses the first cell of the next row.
* `Sk.G64.C133_rows_of_view_violated` – C133, violated: the row views on which the stochastic solvers run cannot be taken of a view on some columns (not starting at the first) of a newly allocated matrix, as soon as the last row is included: training an `MLPRegressor` on such a view panics.
* `Sk.G64.C134_copy_violated` – C134, violated: the copy of a view held as a `General64` has in its second row the memory following the first row of the view, not the second row.
* `Sk.G64.C134_sumRows_violated` – C134, violated: `SumRows` leaves the last row of its argument in the receiver instead of the sum of the rows; for two rows it is right only when the first is zero.
* `Sk.Logistic.C136_logistic_nan_violated` – C136 violated, logistic regression. `NaN` passes as `Alpha`.
* `Sk.MlpFit.C136_nan_violated` – C136, violated: `NaN` passes all range checks.
* `Sk.MlpFit.C136_softmax_violated` – C136, violated: "softmax" is accepted as the activation of hidden layers, although it has no derivative: the first gradient panics.
* `Sk.MlpFit.C137_binary_violated` – C137, violated: an `MLPRegressor` fitted on targets that are all 0 or 1 turns into a classifier: all its predictions, at every point, are 0 or 1.
* `Sk.MlpFit.C137_padding_violated` – C137, violated: the kind of network depends on memory that is not part of the targets: for 0/1 targets given as a view, a cell outside the view holding another value makes the difference.
* `Sk.MlpFit.C138_neg_violated` – C138, violated: with a `NegLabel` other than 0 the encoding of a known label does not contain `NegLabel` at all, but zeros.
* `Sk.MlpFit.C138_refit_violated` – C138, violated: after a fit on other labels, a fit on labels 0 and 1 keeps the old label binarizer: predictions panic, or return the single old label.
* `Sk.MlpFit.C138_two_columns_violated` – C138, violated for two label columns, whatever the training does: the estimator reports two outputs, but the prediction of the second is always 0 (first column with at least as many classes as the second) or predicting one sample panics.
* `Sk.MlpFit.C139_missing_violated` – C139, violated: rows with fewer features than the network was trained on are accepted and treated as if the missing ones were zero.
* `Sk.MlpFit.C139_view_violated` – C139, violated: for a column of a wider matrix (stride at least 2) the labels are written one after the other: row 1 of the column gets the label of sample `stride` or keeps its old value, and the cell next to row 0, in another column of the matrix, is overwritten with the label of sample 1.
* `Sk.MlpFit.C140_hidden_violated` – C140, violated: a network with hidden layers is read without error, but every prediction with it panics (the sizes of the hidden layers are left at 0).
* `Sk.MlpFit.C140_params_violated` – C140, violated: parameters whose json name contains an underscore (`max_iter`, `learning_rate_init`, `hidden_layer_sizes`, …; the names declared by the json tags of the structure itself and used by scikit-learn) are skipped without notice.
* `Sk.MlpFit.C140_regressor_violated` – C140, violated: a regression network read from a file predicts only zeros and ones.
* `Sk.MlpFit.C141_loss_violated` – C141, violated: with early stopping the validation rows count in the denominator: the loss reported is strictly smaller than the mean loss of the samples trained on (when this is positive).
* `Sk.MlpFit.C141_types_violated` – C141, violated: without shuffling, an `X` that is a dense matrix with a `Y` of another type is trained on no rows, without an error.
* `Sk.MlpFit.C141_warm_violated` – C141, violated: with `WarmStart` set, the first `Fit` of an estimator panics.
* `Sk.Tensor.C142_backing_violated` – C142, violated: the length of a given backing slice is not checked; with fewer elements than the shape has, `At` panics for some index inside the shape.
* `Sk.Tensor.C142_few_violated` – C142, violated: with too few indices `At` gives no error, but the element with the missing indices 0.
* `Sk.Tensor.C142_restart_violated` – C142, violated: `Start` does not start again: a second loop with the same iterator visits nothing.
* `Sk.Tensor.C144_nan_violated` – C144, violated: cells that are `NaN` in one of the tensors never count as different.
* `Sk.Tensor.C144_nil_violated` – C144, violated: cloning a kernel with a nil theta, for which sums and products have a special case, panics for every kernel.
* `Sk.Tensor.C144_shape_violated` – C144, violated: only the cells of the first tensor are compared: a tensor has no difference with one that continues it with further rows of any values.
* `Sk.BaseMat.C145_naive_bayes_violated` – C145 fails for the naive Bayes probabilities: given an empty `*mat.Dense` (which every other `Predict` accepts and resizes) `PredictProbas` and `PredictLogProbas` panic.
* `Sk.BaseMat.C145_nothing_violated` – C145 fails for no samples or no outputs: asked to predict for nothing, without a destination or with an empty one, the methods panic instead of returning an empty matrix.
* `Sk.BaseMat.C146_overlap_violated` – C146 fails for overlapping memory: copying a column of any length to the view one row below in the same buffer writes its first value into every row.
* `Sk.BaseMat.C146_size_violated` – C146 fails for sizes: a destination with fewer columns than the source is accepted, and cells which do not belong to it are overwritten (here the source is one row; the destination is a view of a wider matrix, its row has `D.cols` cells of that matrix in its slice).
* `Sk.BaseMat.C146_stride_violated` – C146 fails for a destination that begins at the same cell but has another stride: nothing is copied, so the second row is wrong.
* `Sk.BaseMat.C147_operator_violated` – C147 fails for any other operator: every sizes are accepted.
* `Sk.BaseMat.C147_rows_violated` – C147 fails for further rows: rows which the first matrix does not have are silently dropped: the text is the same for all their contents.
* `Sk.BaseMat.C147_short_violated` – C147 fails for fewer rows: a later matrix with fewer rows than the first one makes it panic.
* `Sk.PrepHelpers.C148_dense_mean_violated` – C148 fails for `DenseMean` with a given matrix: its old values are added before the division, so the result is the mean exactly if they were zero.
* `Sk.PrepHelpers.C148_normalizer_inverse_violated` – C148 fails for the inverse of the normalizer: the result matrix is never allocated, so on every non-empty matrix `InverseTransform` panics.
* `Sk.PrepHelpers.C148_population_violated` – The population standard deviation is what the code returns when the matrix has as many columns `n` as needed for `((n-1)/n)² = (m-1)/m`; for two rows this never happens.
* `Sk.PrepHelpers.C148_std_violated` – C148 fails for the standard deviation: it is multiplied by `(n-1)/n` for the number `n` of columns of the matrix, which has nothing to do with the data: it is the sample standard deviation only when that is zero, for a single column it is always zero, and the result for a column changes when other columns are added.
* `Sk.Source.C149_clone_violated` – C149 fails for `SourceClone`: it does not take the lock, so while another goroutine draws it can copy a state between the two writes; when that state is not one the source ever has between calls, the clone's state belongs to no point of the stream.
* `Sk.Source.C149_panic_violated` – C149 fails when a function given to `WithLock` panics (the caller recovers): the mutex stays locked, so the source is dead: whatever is scheduled afterwards, no call of any goroutine, the panicking one included, ever takes effect.
* `Sk.TransClone.C151_maxabs_violated` – C151 is violated in the same way by `MaxAbsScaler`.
* `Sk.TransClone.C151_minmax_violated` – C151 is violated by `PartialFit` on a clone of a fitted `MinMaxScaler`: the original then transforms as a scaler fitted to the rows of both, which are other values as soon as the new rows have a smaller cell; its `NSamplesSeen` is unchanged.
* `Sk.TransClone.C151_robust_violated` – C151 is violated by `Fit` itself on clones of a fitted `RobustScaler`: two clones fitted to data of the same number of rows, and the original, all show the statistics of the data fitted last.
* `Sk.TransClone.C151_std_violated` – C151 is violated by `PartialFit` on a clone of a fitted `StandardScaler`: the original keeps its `Mean` and `Var` and gets the `Scale` of the clone.
* `Sk.Scores.C152_constant_violated` – C152 is violated for a constant column of targets: the score panics, also for perfect predictions and for a single row.
* `Sk.Scores.C152_early_violated` – C152 is violated with early stopping for a classifier trained on a column of labels (two or more, not only 0 and 1): the validation score of the first epoch panics, whatever the network and the validation rows.
* `Sk.Scores.C152_gp_violated` – C152 is violated by the Gaussian process: `Score` fits the estimator to the data it is asked to score (the training data are lost), and, since the package never sets `YtrainMean`, panics then.
* `Sk.Scores.C152_view_violated` – C152 is violated for targets that are a view of a larger matrix: `MLPRegressor.Score` and `BaseMultilayerPerceptron64.Score` panic, since the predictions are read with the stride of the targets.
* `Sk.Views.C153_const_violated` – C153 is violated by constant matrices: they can be read outside of `Dims`.
* `Sk.Views.C153_ones_violated` – C153 is violated by `MatOnesPrepended`: there is no column of ones; it is the matrix it was made from.
* `Sk.Views.C153_rowslice_end_violated` – C153 is violated: a row slice that ends before the matrix can be read one row after its end.
* `Sk.Views.C153_rowslice_set_violated` – C153 is violated by `Set` of a row slice that does not begin with the first row: for the first `Start` rows it panics, for the others it writes another row of the matrix (the cell named keeps its value).
* `Sk.Views.C154_bounds_violated` – C154 is violated outside of the matrix: a slice of the first row of a view that is one column wider than the view is accepted, and shows a cell that is not in the view.
* `Sk.Views.C154_order_violated` – C154 is violated for columns in the wrong order: with two or more rows the slice is made, and has a negative number of columns.
* `Sk.Views.C154_rows_violated` – C154 is violated for rows of a view: of columns from the second on of a new matrix, no rows up to the last can be sliced (while `MatDenseSlice` of the same rows works, `C154_slice`).
* `Sk.Params.C155_case_violated` – C155 is violated for names that differ in case only, like "Alpha" and "alpha": which of the two values is used depends on the order in which Go visits the map.
* `Sk.NeighState.C156_centroid_nil_violated` – `NearestCentroid.Predict` without a destination panics, whatever was done before; with one it gives the predictions.
* `Sk.NeighState.C156_clone_violated` – Whatever is done with a classifier, cloning it or asking whether it is a classifier panics: so does cross-validating it.
* `Sk.NeighState.C156_power_violated` – Fit overwrites the power: set to `p` by the caller, it is lost when the estimator is fitted with the metric `euclidean`, and a later Fit with the metric `minkowski` searches with power 2; had the first Fit not been made, it would search with `p`.
* `Sk.NeighState.C156_setP_violated` – The power read at prediction time: after Fit with the metric `minkowski`, a new value of `P` takes effect at once if Fit built a tree, and not before the next Fit if it did not.
* `Sk.NeighState.C156_stale_violated` – Refitting does not forget: once a Fit built a tree, a later Fit on data for which the settings ask for brute force leaves the old tree in place, and queries go to it. For a query equal to row `i` of the old rows and row `j` of the new ones the regressor answers the new target of row `i`; a new estimator answers that of row `j`.
* `Sk.NeighState.C156_targets_violated` – The classifier keeps the caller's targets: overwriting them after Fit changes what it predicts for the training rows.
* `Sk.NBClone.C157_fit_violated` – Training a clone of a trained estimator with `Fit` panics, whatever the data.
* `Sk.NBClone.C157_follows_panic_violated` – So if the original now has more classes than before, `Predict` of the clone panics.
* `Sk.NBClone.C157_follows_violated` – A clone does not keep what it was cloned with: when its original is trained anew (after `Theta = nil`), the clone predicts from the new statistics of the original, with its own old class labels.
* `Sk.NBClone.C157_partial_fit_violated` – Training a clone with `PartialFit` changes its original: the original now predicts from the statistics of the clone.
* `Sk.SvmState.C158_gamma_violated` – Refitting a default estimator on data with another number of features keeps the gamma of the first fit: the kernel used for the second fit is that for `1 / n`, where a new estimator uses `1 / m`.
* `Sk.TransClone.C159_encoder_violated` – C159 is violated by `PartialFit` on a clone of a fitted `LabelEncoder`: the original is then the encoder fitted to the labels of both; a label of its own gets a larger code as soon as the clone saw a new smaller one.
* `Sk.TransClone.C159_pca_violated` – C159 is violated by `Fit` of a clone of a fitted `PCA`: the original keeps its singular values, ratios and `NComponents`, and transforms with the singular vectors of the data of the clone.
* `Sk.MlpOpt.C160_curve_violated` – C160, violated: after a second `Fit` the loss curve is not that of the second fit.
* `Sk.MlpOpt.C160_decay_violated` – C160, violated: with weight decay the gradient answered is not the derivative of the loss answered; each component is the derivative divided by `1 - WeightDecay`.
* `Sk.MlpOpt.C160_result_violated` – C160, violated: the parameters are not those of the best evaluation. Whenever the last point tried is worse than one tried before, the network keeps the last point, and its loss is above `BestLoss`.
* `Sk.MlpOpt.C160_stale_violated` – C160, violated: a gradient asked for at another point than the last evaluation is the gradient at that last point.
* `Sk.MlpOpt.C161_dead_second_violated` – C161, violated: a `relu` unit of the second hidden layer that is inactive on the whole batch spoils the first layer too: the gradient for a coefficient of a first layer unit is a number only if the feature is zero on all rows where that unit is active.
* `Sk.MlpOpt.C161_dead_violated` – C161, violated: if a hidden unit of the first layer is inactive (0) on the whole batch, the gradient written for its intercept is not a number, for every depth and any of the activations; so is that of its coefficient for any feature that is not zero on the whole batch.
* `Sk.MlpOpt.C161_gradient_violated` – C161, violated: with batch normalisation the gradient written is not that of the loss returned. For a network with one hidden layer the data part of the gradient for the outgoing coefficient of a hidden unit is divided by the largest activation of that unit, so it is wrong unless that is 1 or the data part is 0.
* `Sk.PowerFit.C162_zero_violated` – C162, violated for lambda 0 (the logarithm): as soon as one value is not negative the objective is not a number.
* `Sk.PowerFit.C163_nan_violated` – C163, violated: a missing value (NaN) does not stay missing under the Yeo-Johnson transform. In the first column of a worker it becomes 0; in another column it becomes the transformed value of the column before: with one row `[x, NaN]`, two workers give `0` and one worker gives the transform of `x`.
* `Sk.PowerFit.C163_stale_violated` – C163, violated: `Fit` without standardisation keeps the scaler of an earlier fit; if `Standardize` is switched on again, `Transform` scales with the statistics of the earlier data.
* `Sk.PowerFit.C163_switch_violated` – C163, violated: switching `Standardize` on after a fit of a new transformer without it makes `Transform` panic.
* `Sk.PowerFit.C163_twice_violated` – C163, violated: transforming the same dense matrix twice gives the same result both times only if every value is fixed by the transform of its column (here one column, without standardisation).
* `Sk.LogClone.C164_curve_violated` – C164, violation. In every program: after cloning a perceptron, fitting the clone and then the original, the clone's loss curve contains the losses of the original's fit in place of its own, when its own had fitted into the spare capacity of the array.
* `Sk.LogClone.C164_default_source_violated` – C164, violation. In every program: the source that `Fit` makes for a perceptron without one is shared with the clones made afterwards, regressors included: fitting such a clone advances the source of the original.
* `Sk.LogClone.C164_source_violated` – C164, violation. In every program: fitting a clone of a classifier that has a random source advances the source of the original (the regressor's source too if it cannot be cloned).
* `Sk.LogClone.C164_warm_violated` – C164, violation. In every program: if a fitted perceptron `i` is cloned, and the clone is fitted with WarmStart, then the original predicts with the parameters trained for the clone.
* `Sk.LogClone.C165_core_violated` – C165, violation. In every program: after cloning a DBSCAN, fitting the clone and then the original, the clone's core samples are those found by the original's fit in place of its own, when its own had fitted into the spare capacity of the array.
* `Sk.LogClone.C165_witness_violated` – Before the original is fitted again the clone has the core samples 0, 1, 2 and 0, afterwards 0, 1, 2 and 1.
* `Sk.SearchObj.C166_stale_violated` – C166, violated: after a fit without candidates the answers still come from the estimator chosen by an earlier fit, although `BestIndex` says that there is none.
* `Sk.SearchObj.C166_unpaired_violated` – C166, violated: with a source that cannot be cloned, or none at all, the candidates are compared on different splits: two candidates with the same parameters get the means of different splits, and `Fit` changes the source.
* `Sk.PipeObj.C167_shared_violated` – C167 (one slice, two pipelines), violation. Pipelines made of the same slice by `NewPipeline(a...)` show the same steps ever after, whatever is fitted or assigned in the slice (until one of the variables is assigned again): a fit of the one is a fit of the other.
* `Sk.PipeObj.C167_twice_violated` – C167 (one step twice), violation. A pipeline that holds the same step twice has, after `Fit(x, y)`, twice the step fitted last: fitted with `x, y`, then again with what it made of them; so predictions pass the data through a step that was never fitted with such data.
* `Sk.PipeObj.C168_blocked_violated` – C168, violation. A pipeline with a OneHotEncoder, Shuffler, MaxAbsScaler, Normalizer, KBinsDiscretizer, PowerTransformer, Binarizer, KernelCenterer, QuantileTransformer, MultiLabelBinarizer or a FunctionTransformer without `InverseFunc` anywhere before its last step panics in every `Predict`, whatever the data.
* `Sk.Metrics.C169_columns_violated` – C169 is violated. With two columns or more and a non zero total weight, `ConfusionMatrix` never returns the matrix of the first column (nor of any other column).
* `Sk.Metrics.C169_panic_violated` – C169 is violated. A second column with two classes makes the function panic when the first column has one class only, although the first column alone gives a matrix.
* `Sk.GP.C170_alpha_violated` – C170 violated by `Alpha`: original and clone hold one slice, so writing an element of it through the one changes the other.
* `Sk.GP.C170_exponent_violated` – C170 violated for an exponentiation: the clone has the base kernel, without the exponent, for every base kernel that copies.
* `Sk.GP.C170_fixed_operand_violated` – C170 violated for a sum or product whose second operand has no free hyperparameter: `PredicterClone` panics.
* `Sk.Metrics.C171_missing_violated` – C171 fails for fewer samples than targets. `KNeighborsClassifier.Score` and `NearestCentroid.Score` do not refuse them: the targets without a sample count as predicted if all their labels are 0.
* `Sk.Metrics.C171_shapes_violated` – C171. What `KNeighborsClassifier.Score`, `NearestCentroid.Score` and `KNeighborsRegressor.Score` make of predictions that do not have the shape of the targets: more rows or columns panic; missing cells count as 0.
* `Sk.Metrics.C171_surplus_violated` – C171 fails for fewer target columns than outputs. `SVC.Score`, `GaussianNB.Score` and `LogisticRegression.Score` compare just the columns of the targets, and just the first rows of the predictions if there are more samples than targets.
* `Sk.Metrics.C171_unit_violated` – C171 fails for small targets. The coefficient of determination does not change if targets and predictions are measured in another unit; this score does: for one output column with a sum of squares of at least `eps` about the mean that is not predicted exactly, some change of unit changes the score.
* `Sk.Svm.C172_duplicates_violated` – C172, violated for repeated rows. Two samples with the same features (and any kernel), targets `Y₀ < Y₁` more than `2·Epsilon` apart and more than `Epsilon` above zero: training moves the multipliers in the wrong direction - the sample with the smaller target gets `+C`, the one with the larger target `-C`, because the step is divided by `+0` - stays there and ends, for any random numbers; both samples are on the wrong side of the tube for their multipliers.
* `Sk.Svm.C172_small_targets_violated` – C172, a consequence that fails. A regressor for targets none of which is further than `eps` from zero, for instance a constant small target, should predict zero; training ends at once without a support sample, and `Fit` panics.
* `Sk.Svm.C172_stuck_violated` – C172 violated: a step is accepted only if it raises the multiplier of the second sample (`alphas[j]-alphajold < Tol` without absolute value), so training can be stuck. For these three samples, with `C = 1` and the linear kernel, the conditions can be met exactly, but training ends without meeting them, whatever the random numbers, the tolerance and the number of passes.
* `Sk.Lin.C173_alpha_violated` – C173, violated: for every positive `Alpha` other than 1, if the minimiser ends where the gradient it is given vanishes, then for every output that is correlated with some feature the fitted model is *not* a minimiser of the ridge cost with that `Alpha`.
* `Sk.Lin.C173_report_violated` – C173, violated: a fit is reported as converged, with cost 0, even if the minimisation of every output failed with an error at a point of positive cost.
* `Sk.Svm.C174_cycle_violated` – C174, violated: with the default settings, the linear kernel and three samples with different abscissae, training of a support vector regressor never ends, whatever `MaxIter` is, when the random numbers repeat in every round.
* `Sk.Lin.C175_alpha_violated` – C175, violated: for every positive `Alpha` (the default is 0.0001) and every `L1Ratio` between 0 and 1, if the minimiser ends where the gradient it is given vanishes, then for every output that is correlated with some feature the fitted model is *not* a minimiser of the cost.
* `Sk.NOut.C176_crossval_violated` – C176, violated: cross-validation panics for every `KNeighborsClassifier` and `NearestCentroid`, whatever the data; the latter panics too when asked for its number of outputs.
* `Sk.NOut.C176_default_violated` – C176, violated: `CrossValidate` has a default for a nil splitter but panics before it is used; with a splitter the jobs are at most the splits and at most what was asked for, and the splitter is the one given.
* `Sk.NOut.C176_literal_violated` – C176, violated for a `GaussianNB` written as a struct literal: it reports 0 outputs after every fit, so that cross-validation panics.
* `Sk.NOut.C176_pipeline_violated` – C176, violated: with a transformer that changes the number of target columns (a label binarizer, for instance) the number reported is not that of the targets, which is what predictions are converted back to.
* `Sk.NOut.C176_stale_violated` – C176, violated: a network or logistic regression fitted on labels and then on 0/1 targets with another number of columns reports the number of the earlier fit.
* `Sk.Encode.C177_missing_violated` – C177 fails: with three rows or more (all different), the arrangement in which the third row comes first and the first row second never comes out, whatever permutation is drawn.
* `Sk.Lin.C178_lasso_violated` – C178 fails for a positive `L1Ratio`: wherever two outputs use a feature, the gradient of the joint fit differs from the one of the separate fits (the joint penalty is on the norm of the row).
* `Sk.Lin.C178_loss_violated` – C178 fails for the loss as well: the `J` of a joint fit is 0 whatever the fit, and so, without a penalty, is the loss of the returned parameters only if they fit every target exactly.
* `Sk.Lin.C178_rmse_violated` – C178 fails: the `RMSE` of a joint fit, even when the last point evaluated is the one returned, is the root of the mean squared residual only for an exact fit or for as many samples as outputs.
* `Sk.MlpDeliver.C180_classifier_violated` – C180, violated: the same misplacement through `MLPClassifier.Predict`: with labels, a destination with gaps between its rows and data that give access to their buffer, the prediction for row 1 lands outside of the destination.
* `Sk.MlpDeliver.C180_labels_violated` – C180, violated: with labels, such data and a destination with gaps between its rows, row 1 gets the prediction for row `stride / o` (when there is one) and a cell that is not in the destination is overwritten.
* `Sk.MlpDeliver.C180_mutable_violated` – C180, violated: data that give access to their buffer and a destination that does not (a transposed or sliced matrix of this library): `Predict` of the base perceptron panics.
* `Sk.Label.C181_interface_violated` – C181, violated: a matrix other than a `*mat.Dense` (a vector, a transposed or sliced matrix) can be fitted, but `Transform` of the same matrix returns no targets (nil), without an error.
* `Sk.Label.C181_mixed_violated` – C181, violated: a binarizer fitted on strings panics on numbers, and one fitted on numbers panics on strings.
* `Sk.Label.C181_unknown_violated` – C181, violated: a label that was not seen is encoded without an error and decoded as the smallest label seen.
* `Sk.LinFit.C182_no_epoch_violated` – C182 violated, no epoch. With `Epochs` not set, a data set of more than a million rows gets no epoch at all: the result has infinite loss and error, zero parameters, and `Epoch` 1.
* `Sk.LinFit.C182_panics_violated` – C182 violated, other losses and activations. With `LogLoss`, with `SquareLoss` and an activation that is not the identity, and with `CrossEntropyLoss` and an activation that is not logistic, a call with mini-batches smaller than the data set always panics in its first epoch, whatever the data, the solver and the numbers drawn.
* `Sk.LinFit.C182_penalty_violated` – C182 violated, penalties. With two mini-batches or more, wherever the penalty has a part in the gradient at all, the gradients of an epoch do not add up to the gradient of the data set: the penalty is counted once per mini-batch.
* `Sk.LinFit.C182_rmse_violated` – C182 violated, `RMSE`. With `SquareLoss` without penalty, whenever the last epoch run is not one of the best, the `RMSE` in the result is strictly larger than the root mean squared error of the predictions of the parameters in the same result.
* `Sk.LinFit.C182_scale_violated` – C182 violated, the scale of a mini-batch's gradient. The gradient that a mini-batch gives is the gradient of the mini-batch's own mean loss times (rows in the mini-batch)/(rows of the data set), without a penalty: smaller steps for the same learning rate, and different from the mean gradient wherever that is not 0.
* `Sk.LinFit.C182_tolerance_violated` – C182 violated, `Tol`. A call has converged when the square root of the root mean squared error is below `Tol`: for every `Tol` between 0 and 1 and every error between `Tol²` and `Tol`, an epoch whose error is below `Tol` does not end the fit and is not reported as converged.
* `Sk.LinFit.C183_sticky_epochs_violated` – C183 violated, the epochs of a later call. After a call with a solver and `Epochs` not set, the same options run, on data of another size, the number of epochs chosen for the first data.
* `Sk.LinFit.C183_sticky_method_violated` – C183 violated, the solver of a later call. After a call with options that name neither a method nor a solver, the same options with `Solver` set to any name still run LBFGS, even when the name is unknown and would otherwise panic.
* `Sk.OptNames.C184_method_violated` – C184 violated, methods. The methods named after the optimisers all do what `gradientdescent` does, whatever the problem; and so does every `SGDOptimizer` given as a method, whatever its step size, momentum, clipping and variant.
* `Sk.OptNames.C184_momentum_violated` – C184 violated, momentum. An optimiser with momentum that is given new parameters after an update carries the last update over to them: with a zero gradient it moves every parameter whose predecessor was moved, while a new optimiser leaves them where they are.
* `Sk.OptNames.C184_step_violated` – C184 violated, step sizes. Plain gradient steps without momentum get smaller with every update, and `SetTheta` does not restore them: the first step for the new parameters is strictly smaller than the first step of a new optimiser, for every gradient that is not zero after clipping.
* `Sk.Interp.C185_interp1d_violated` – C185 violated, `Interp1d`. For increasing abscissae: whatever ordinate the caller writes later at index `i` of the slice passed as `y`, the function made before returns it at `x[i]`.
* `Sk.Interp.C185_spline_violated` – C185 violated, `CubicSpline`. For increasing abscissae: whatever ordinate the caller writes later at index `i`, the function made before takes it at `x[i]`, with slopes at the knots that are still those of the old ordinates.
* `Sk.Interp.C185_two_points_violated` – With two points the spline is the line through them, and the function made from the points no longer is when an ordinate has been changed: the mixture is off the line through the new points everywhere except at the ends and in the middle.
* `Sk.CrossVal.C186_retained_violated` – C186 violated, estimators that keep a reference to their training matrices, general form of `C09_retained_training_data_violated`: with one job, after `CrossValidate` has returned, the estimator of *every* split sees the rows of the last split in place of its training rows.
* `Sk.Init.C187_linear_violated` – C187, violated: therefore a new network with relu units computes, on every sample without negative features, what it would compute without any activation function in its hidden layers: an affine function.
* `Sk.Init.C187_sign_violated` – C187, violated: the initialisation "recommended by Glorot et al." draws from both sides of 0; here no initial parameter is ever negative, for no layer sizes, activation or draws.
* `Sk.Repeat.C188_mean_error_violated` – C188 is violated by `MeanSquaredError` and `MeanAbsoluteError` (`loss` the square or the absolute value): giving the second of two samples the weight `k ≥ 2` does not count it `k` times, unless both samples have the same loss.
* `Sk.RowOrder.C189_kbins_quantile_violated` – C189 is violated by `KBinsDiscretizer` with the quantile strategy: every column with two different values can be arranged so that fitting succeeds (ascending) and so that it panics (descending).
* `Sk.RowOrder.C189_quantile_violated` – C189 is violated by `QuantileTransformer`: the smallest quantile it learns is the cell of the first row.
* `Sk.RowOrder.C189_support_violated` – C189 is violated by the support of `LabelEncoder`: two labels once each, in either order.
* `Sk.Dual.C192_roles_violated` – C192 violated, other labels. If the predictions are all the same label `a`, one of the true labels, and some true label is greater, the roles cannot be exchanged: the scores are defined, and with truth and predictions exchanged the same calls panic.
* `Sk.KnnInv.C194_ties_violated` – Conflicting ties matter: with two training samples at the same distance of the query and different targets, exchanging the two rows changes the prediction of the nearest neighbour, whatever the sort and the (nonzero) weights.
* `Sk.KnnInv.C194_unit_violated` – Distance weights do depend on the unit, because of the constant added to the distances: two training samples at the distances 0 and 1 of the query, with targets 0 and 1.
* `Sk.Dbscan.C196_dbscan_border_violated` – The middle sample goes to the cluster whose core sample comes first in the data: reversing the rows moves it to the other cluster, for every origin and radius.
* `Sk.Dbscan.C196_kmeans_origin_violated` – C196 is false of KMeans under shifts when a cluster loses all its samples: its centroid becomes the origin, wherever the data lie. Two equal samples and two clusters: the centroids found do not move with the data.
* `Sk.Dbscan.C196_kmeans_rows_violated` – C196 is false of KMeans under reordering the samples: the search starts from the first samples. At the corners of a rectangle it finds the left and the right pair, or the lower and the upper pair, by the order in which they are listed.
* `Sk.Label.C198_unknown_violated` – C198 is false: an unknown label is not told from the least fitted one by `InverseTransform` (if `NegLabel` is not negative; the default is 0): all unknown labels come back as the least fitted label.
* `Sk.Bayes.C200_std_violated` – C200, violated: the standard deviations depend on the order of the features. With two or more features, for all data: exchanging the first two features changes the second result of `Predict2` for some row.
* `Sk.Svm.C201_boundary_violated` – C201 violated on the boundary: a row with decision value 0 is predicted to be in class 1 by both models, whatever the class is called.
* `Sk.Svm.C201_reflect_violated` – C201, reflected targets, violated. Three samples 0, 1, 2 with targets 0, 1, 2: the regression finds the line `x`. With targets 0, −1, −2 and the same random numbers it does not find `-x` but `-9/10·x − 1/10`.
* `Sk.Svm.C201_zero_one_violated` – C201 violated for labels 0 and 1: the labels which `Predict` returns cannot be used in `Fit`. All multipliers stay zero, and when training ends, building the model panics; with the default `MaxIter` it takes 2147483647 passes to get there as soon as some label is 1.
* `Sk.Logistic.C202_names_violated` – C202 violated, names of two classes. Two classes called 0 and 1 are fitted with one output, two classes with other names with two outputs, whose coefficients are both penalised: the optimum for the same data and the same `Alpha` is another one. Unless all coefficients are zero, some row has other probabilities.
* `Sk.GP.C205_white_violated` – C205 violated for noise kernels, which say they are stationary: for two rows `2e-8` apart and outputs zero the value of `LogMarginalLikelihood` changes when the rows are moved by 10.
* `Sk.PipeHeap.C207_bins_violated` – C207 (bins lose Y). `KBinsDiscretizer.Transform` returns nil for Y; a pipeline with a fitted `KBinsDiscretizer` followed by a step that needs Y to be fitted cannot be fitted.
* `Sk.PipeHeap.C207_overwritten_violated` – C207 (overwriting). `PowerTransformer.Transform` overwrites a `*mat.Dense` (or another type that gives away its data) with its power transform; all other matrices stay. A type that does not give away its data stays too.
* `Sk.PipeHeap.C207_power_first_violated` – C207 (predicting through a power transformer). If the first step is a `PowerTransformer`, predicting replaces the caller's X by its power transform; so the next prediction for this X is the one for the transformed X.
* `Sk.PipeHeap.C207_shared_violated` – C207 (shared results). The Y returned by the transformers of features is the caller's Y, the X returned by the label transformers is the caller's X: a change of the returned matrix is a change of the argument.
* `Sk.Dbscan.C209_border_violated` – With `MinSamples` 5 the samples 5 and 6 are in one cluster; with `MinSamples` 4 they are in two, for every origin and radius: a sample between two clusters joins the one that is numbered first.
* `Sk.Dbscan.C209_negative_violated` – With negative weights a larger radius may turn a core sample into noise: any two samples that only the larger radius reaches, weights `u` and `v` with `ms < u` and `u + v ≤ ms`, `v ≤ ms`.
* `Sk.Lin.C212_alpha_violated` – C212, Alpha (violated): a larger penalty does not give smaller coefficients; all positive values of `Alpha` give the same model, on all data.
* `Sk.PipeHeap.C214_lost_violated` – C214 (Y lost). `PolynomialFeatures.InverseTransform` (for a non-nil X) and `KBinsDiscretizer.InverseTransform` return a nil Y whatever Y they are given.
* `Sk.PipeHeap.C214_normalizer_violated` – C214 (Normalizer). `Normalizer.InverseTransform` panics on all arguments.
* `Sk.PipeHeap.C214_shared_violated` – C214 (shared results). The Y returned with a new X, the X returned with a new Y, and both results of `Imputer` are the matrices of the caller: a change of the returned one is a change of the argument.
* `Sk.PipeHeap.C214_shuffled_violated` – C214 (Shuffler, round trip). `Transform` copies, `InverseTransform` does not: after a round trip X and Y of the caller are as before and their contents are given back, but in the place of the shuffled matrices, which the caller may still hold.
* `Sk.PipeHeap.C214_shuffler_violated` – C214 (Shuffler). `Shuffler.InverseTransform` overwrites both arguments and returns them: the matrices of the caller are gone, and inverting a second time inverts the inverted ones. Only if X and Y are one and the same matrix nothing happens to it, so that it is not inverted at all.
* `Sk.Mlp.C215_adam_violated` – C215 (Adam) violated. Of two parameters with the same start and the same gradient, exchanging them is exchanging nothing, but one update of Adam does not commute with it: the first is moved differently from the second (for every `β1, β2` in (0,1) with `1+β2 ≠ (1+β1)²`, as the default 0.9 and 0.999).
* `Sk.CrossKnn.C216_classifier_violated` – C216 (classifier) violated. Nearest-neighbour classifiers with one neighbour, cross-validated with `KFold` by one job on distinct samples: while it is scored the classifier of a split gives every sample of its training rows its own target, but once `CrossValidate` has returned it gives them, one after the other, the targets of the rows of the last split.
* `Sk.Svm.C217_svc_violated` – C217 violated. Three samples, `C = 1`, linear kernel: whatever the random numbers and the tolerances below 1/6, training ends, and a constant function has a cost lower by more than `m·C·Epsilon`.
* `Sk.Svm.C218_fit_sigmoid_violated` – C218, estimators, violated: with the kernel "sigmoid" no output gets one, whatever the settings and the data.
* `Sk.Svm.C218_poly_violated` – C218 violated: neither is a polynomial kernel of odd degree with a negative `coef0`.
* `Sk.Svm.C218_sigmoid_violated` – C218 violated: whatever its (positive) `gamma` and its `coef0`, the sigmoid kernel is not positive semidefinite.
* `Sk.LinFit.C221_constant_violated` – C221, violated: fitting a constant. With one feature that is 1 in every row, the least squares solution is the mean of the targets. `LinFit` with the solver `sgd`, all rows in one mini-batch, and `δ = 40 · StepSize / (1 − Momentum) < 1` stays away from it by at least `1 − δ / (1 − δ)` times the distance at the start, however many epochs are run.
* `Sk.LinFit.C221_reach_violated` – C221, violated: the solver `sgd` has a limited reach. As the sizes of its updates have a finite sum, it never moves a parameter further than `40 · StepSize / (1 − Momentum)` times the largest gradient, whatever the number of updates and whether gradients are clipped or not.
* `Sk.Neigh.C222_bound_violated` – C222, violated: the bound. With no more samples than fit into a leaf (30 unless set otherwise), a bound has no effect: the `k` nearest samples are returned even if none is within the bound.
* `Sk.Neigh.C222_missing_violated` – C222, violated: missing neighbours. For more neighbours than samples (without a bound) every row lists all samples and then, where the documentation promises infinite distances, reports sample 0 at distance 0.
* `Sk.Knn.C223_auto_violated` – C223, violated: the default algorithm. With "auto", distance weights and more neighbours than samples, the prediction is refused for up to 1000 cells of training data, and from then on it is the class of the first sample whatever the query.
* `Sk.Knn.C223_first_violated` – C223, violated: more neighbours than samples, distance weights. The exhaustive search refuses; with a tree the classifier always predicts the class of the first training sample, for every query farther than `n * eps` from all samples (`eps` is 1e-15).
* `Sk.Knn.C223_mean_violated` – C223, violated: more neighbours than samples, regression. Where the exhaustive search refuses, a tree makes the regressor with equal weights return the same number for every query: the mean of the targets with the first one counted `k - n` times more.
* `Sk.LabelBuf.C232_nan_violated` – C232 violated: a NaN label that occurs twice or more in a column is listed as that many equal classes.
* `Sk.LabelBuf.C232_neg_violated` – C232 violated: with a `NegLabel` other than 0 the cells of the other classes of a known label do not hold it.
* `Sk.LinFit.C233_cross_entropy_violated` – C233 violated: `CrossEntropyLoss` with an increasing activation other than `base.Logistic`, targets 0 and a feature above 1 in every sample does not give the derivative for this feature.
* `Sk.LinFit.C233_log_violated` – C233 violated: `LogLoss` with any activation gives every feature the derivative with respect to an intercept: with predictions between 0 and 1, an increasing activation, targets 1 and a feature above 1 in every sample this is not the derivative.
* `Sk.KMeans.C234_start_violated` – C234 violated when two of the first rows lie in one group, however far the groups are apart: with 3 clusters and the rows 0, 1, `s`, `2s`, in this order, `Fit` separates the rows 0 and 1 and puts `s` and `2s` into one cluster, for every `s ≥ 4`.
* `Sk.KMeans.C236_best_violated` – C236 violated for the best clustering, by any factor: with 3 clusters and the rows 0, 1, `s`, `2s` the sum of squares reached is more than `M` times that of the clusters {0, 1}, {`s`}, {`2s`}, when `s ≥ 4` and `s² > M`.
