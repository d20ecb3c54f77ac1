{"id": "C01", "title": "Parallelize covers every index exactly once", "statement": "Calling Parallelize(threads, N, f) invokes f on half-open ranges that together contain every index of [0,N) exactly once, with pairwise distinct worker numbers below the effective thread count.", "quantifier": "for every thread count (zero/negative meaning any number of CPUs) and every N", "why_tests_cant": "Tests fix a machine's CPU count and a few N; a rounding mistake shows only for particular (threads,N) pairs.", "anchors": ["base/parallel.go: Parallelize"]}
{"id": "C02", "title": "Parallelize result does not depend on the schedule", "statement": "If the body run on a range only writes cells of that range with values that depend on the index alone, then after Parallelize returns the array is the one a sequential loop would have produced, whatever the interleaving of the goroutines' individual writes.", "quantifier": "for every interleaving of the workers' writes, every thread count, every N and every initial array", "why_tests_cant": "A test run observes a handful of schedules out of exponentially many.", "anchors": ["base/parallel.go: Parallelize", "preprocessing/data.go: DenseMean", "linear_model/Base.go: PreprocessData"]}
{"id": "C03", "title": "Row/column slice views read and write the cells they denote", "statement": "A matrix view obtained by slicing rows and columns reads exactly the corresponding cells of its parent, a write through the view is read back through the view and changes exactly one cell of the parent.", "quantifier": "for every matrix shape and stride, every legal slice, every cell and value", "why_tests_cant": "Tests only touch a few cells and mostly start slices at row 0, where offset errors vanish.", "anchors": ["base/matrix.go: MatRowSlice, MatGeneralSlice, MatGeneralRowSlice, MatGeneralColSlice, MatTranspose"]}
{"id": "C04", "title": "KFold: every split is a train/test partition of the rows", "statement": "KFold.Split yields exactly NSplits splits (3 if NSplits<=0); in each split train and test indices are disjoint, without repetition, and together are exactly 0..N-1; test sizes are N/NSplits or N/NSplits+1, the first N mod NSplits being the larger, and sum to N.", "quantifier": "for every N>=1, NSplits, with or without shuffling, every random stream", "why_tests_cant": "Depends on every random draw; tests sample a few seeds.", "anchors": ["model_selection/split.go: KFold.Split"]}
{"id": "C05", "title": "KFold: every row is tested exactly once across the splits", "statement": "Over all the splits of one KFold.Split call, the test sets are pairwise disjoint and cover all rows.", "quantifier": "for every N, NSplits, shuffle flag, random stream", "why_tests_cant": "A few seeds can accidentally give disjoint folds; the claim is about all random streams.", "anchors": ["model_selection/split.go: KFold.Split"]}
{"id": "C06", "title": "TrainTestSplit keeps rows paired, loses and duplicates none", "statement": "TrainTestSplit returns test and train blocks whose (X row, Y row) pairs are together a rearrangement of the input pairs, the test block having ceil(N*testsize) rows (or min(N,ceil(testsize)) when testsize>1); it panics exactly when one of the blocks would be empty (or sizes are out of range).", "quantifier": "for every X, Y, test size, and permutation produced by the random source", "why_tests_cant": "Tests look at one seed and one size.", "anchors": ["model_selection/split.go: TrainTestSplit"]}
{"id": "C07", "title": "ParameterGrid enumerates the full cartesian product once", "statement": "ParameterGrid returns one assignment for each combination of values, each combination exactly once, binding every parameter name, whatever the iteration order of the Go map.", "quantifier": "for every parameter map and every map iteration order", "why_tests_cant": "Map iteration order is randomised by the runtime; empty value lists are a corner no test visits.", "anchors": ["model_selection/search.go: ParameterGrid"]}
{"id": "C08", "title": "GridSearchCV reports the optimum of what it evaluated", "statement": "After GridSearchCV.Fit, BestScore is the largest (smallest when LowerScoreIsBetter) of all reported mean test scores, BestIndex is the first index attaining it, BestParams is the parameter combination at that index and BestEstimator is an estimator trained with it.", "quantifier": "for every list of candidate scores and both score directions", "why_tests_cant": "Ties, negative scores and all-equal scores form an infinite family; tests pick generic data.", "anchors": ["model_selection/search.go: GridSearchCV.Fit"]}
{"id": "C09", "title": "CrossValidate results do not depend on NJobs or scheduling, and sort keeps fields together", "statement": "For every number of jobs and completion order, CrossValidate puts in slot i the score and estimator obtained from split i with its own clone; sorting the result permutes scores, estimators, fit times and score times by one and the same permutation.", "quantifier": "for every interleaving of the workers, every number of splits, every sequence of swaps performed by sorting", "why_tests_cant": "Interleavings cannot be enumerated by tests.", "anchors": ["model_selection/validation.go: CrossValidate, CrossValidateResult"]}
{"id": "C10", "title": "A cloned estimator is independent of the original", "statement": "Fitting a clone of a linear regression never changes what the original, or any other clone, predicts.", "quantifier": "for every history of Fit/PredicterClone/Predict calls on any set of clones", "why_tests_cant": "Aliasing shows only for particular histories (clone after fit, then refit).", "anchors": ["linear_model/Base.go: LinearRegression.PredicterClone, LinearModel.setIntercept, LinearRegression.Fit"]}
{"id": "C11", "title": "Pipeline composes its steps in order", "statement": "Pipeline.Fit trains step k on the data as transformed by the already fitted steps 0..k-1; Predict on new X equals predicting with the last step on the composed transforms and then applying the inverse target transforms in reverse order; fitting then transforming equals FitTransform.", "quantifier": "for every list of steps, every behaviour of the steps, every X and Y", "why_tests_cant": "Tests use one or two fixed pipelines.", "anchors": ["pipeline/pipeline.go: Pipeline.Fit, Pipeline.Predict, Pipeline.Transform"]}
{"id": "C12", "title": "LabelEncoder round trip and support counts", "statement": "After LabelEncoder.Fit, each column's Classes are the distinct fitted labels in increasing order, Support counts their occurrences, Transform of a fitted label is its rank in Classes, and InverseTransform(Transform(Y)) = Y for any Y made of fitted labels.", "quantifier": "for every label matrix", "why_tests_cant": "Infinite family of label multisets, orders and repetitions.", "anchors": ["preprocessing/label.go: LabelEncoder.Fit, PartialFit, Transform, InverseTransform"]}
{"id": "C13", "title": "LabelEncoder incremental fit equals batch fit", "statement": "PartialFit on successive batches gives the same Classes and Support as Fit on the concatenation of the batches.", "quantifier": "for every number, size and content of batches", "why_tests_cant": "Needs all histories of batches.", "anchors": ["preprocessing/label.go: LabelEncoder.PartialFit"]}
{"id": "C14", "title": "LabelEncoder does not silently map an unknown label to a known one", "statement": "Transform maps a label that was never fitted to -1 (a code that is not the code of any fitted label).", "quantifier": "for every fitted label set and every unknown label", "why_tests_cant": "Tests only try an unknown label beyond the largest class.", "anchors": ["preprocessing/label.go: LabelEncoder.Transform"]}
{"id": "C15", "title": "LabelBinarizer one-hot encoding round trip", "statement": "LabelBinarizer.Transform of fitted labels produces for each output column exactly one PosLabel at the class position, and InverseTransform recovers the labels.", "quantifier": "for every label matrix with any number of output columns", "why_tests_cant": "Tests exercise a small number of columns.", "anchors": ["preprocessing/label.go: LabelBinarizer.Fit, Transform, InverseTransform"]}
{"id": "C16", "title": "MinMaxScaler maps fitted data into the feature range and is invertible", "statement": "After Fit, Transform of the training data lies in [FeatureRange[0],FeatureRange[1]] with both bounds attained on every non constant column, and InverseTransform(Transform(X)) = X for any X.", "quantifier": "for every data matrix and every feature range lo<hi", "why_tests_cant": "Infinite data; constant columns are corner cases.", "anchors": ["preprocessing/data.go: MinMaxScaler.PartialFit, Transform, InverseTransform"]}
{"id": "C17", "title": "MinMaxScaler incremental fit equals batch fit", "statement": "Fit on a first batch followed by PartialFit on further batches yields the same scaling as Fit on all rows at once.", "quantifier": "for every sequence of non-empty batches", "why_tests_cant": "Needs all histories.", "anchors": ["preprocessing/data.go: MinMaxScaler.Fit, MinMaxScaler.PartialFit"]}
{"id": "C18", "title": "StandardScaler centres, scales to unit variance and is invertible", "statement": "After Fit, transformed training columns have mean 0 and (when not constant) population variance 1, and InverseTransform(Transform(X)) = X for any X.", "quantifier": "for every data matrix with at least one row", "why_tests_cant": "Infinite data.", "anchors": ["preprocessing/data.go: StandardScaler, IncrementalMeanAndVar"]}
{"id": "C19", "title": "Incremental mean and variance equal batch mean and variance", "statement": "IncrementalMeanAndVar applied batch after batch yields the mean and the variance of all rows seen.", "quantifier": "for every sequence of batches", "why_tests_cant": "Needs all histories of batches; tests use one batch.", "anchors": ["preprocessing/data.go: IncrementalMeanAndVar, StandardScaler.PartialFit"]}
{"id": "C20", "title": "PolynomialFeatures produces every monomial exactly once", "statement": "Fit(n features, degree d) enumerates exactly the exponent vectors of total degree <= d (only those with exponents <=1 when InteractionOnly; without the constant one when IncludeBias is false), each exactly once; Transform evaluates them; InverseTransform recovers X.", "quantifier": "for every number of features, degree and flags", "why_tests_cant": "Combinatorial family without bound.", "anchors": ["preprocessing/data.go: PolynomialFeatures", "preprocessing/itertools.go: combinations, combinationsWithReplacement"]}
{"id": "C21", "title": "OneHotEncoder sets exactly one flag per feature and decodes back", "statement": "Transform of fitted data sets exactly one 1 per input feature, in the column block of that feature, at the position of the value; InverseTransform recovers the values.", "quantifier": "for every data matrix", "why_tests_cant": "Infinite data.", "anchors": ["preprocessing/data.go: OneHotEncoder"]}
{"id": "C22", "title": "Shuffler applies one permutation to X and Y and undoes it", "statement": "Transform moves whole rows, with the same permutation on X and Y, losing none; InverseTransform(Transform(X,Y)) = (X,Y).", "quantifier": "for every X, Y and every permutation drawn", "why_tests_cant": "All permutations of all sizes.", "anchors": ["preprocessing/data.go: Shuffler.Fit, Transform, InverseTransform"]}
{"id": "C23", "title": "Imputer keeps present values and fills every missing one", "statement": "Transform leaves every non-missing cell unchanged, and replaces every missing cell by the fitted statistic of its column (mean of the present values for strategy mean, most frequent present value for most_frequent); for mean the column mean over present cells is unchanged.", "quantifier": "for every matrix with missing cells", "why_tests_cant": "Infinite data and missingness patterns.", "anchors": ["preprocessing/imputation.go: Imputer"]}
{"id": "C24", "title": "KBinsDiscretizer assigns each value to the unique bin containing it", "statement": "For ordinal encoding each transformed value is an integer bin number in [0,NBins-1], monotone in the input, and InverseTransform returns the midpoint of that bin.", "quantifier": "for every data matrix, bin count and strategy with sorted edges", "why_tests_cant": "Boundary values at bin edges are measure-zero for random tests.", "anchors": ["preprocessing/discretization.go: KBinsDiscretizer"]}
{"id": "C25", "title": "Yeo-Johnson power transform is invertible", "statement": "For each lambda the Yeo-Johnson inverse undoes the transform for every real input.", "quantifier": "for every real x and lambda", "why_tests_cant": "Continuum of inputs; lambda 0 and 2 are special.", "anchors": ["preprocessing/data.go: PowerTransformer"]}
{"id": "C26", "title": "Accuracy is the weighted fraction of exactly matching rows", "statement": "AccuracyScore with normalisation is in [0,1], equals 1 iff all rows with positive weight match, and is invariant under permuting samples consistently.", "quantifier": "for every label matrices and nonnegative weights with positive sum", "why_tests_cant": "Infinite data.", "anchors": ["metrics/classification.go: AccuracyScore"]}
{"id": "C27", "title": "Precision/recall/F-score are bounded and consistent with counts", "statement": "For each class precision, recall and F-score lie in [0,1], precision is TP/(TP+FP), recall TP/(TP+FN), F1 is their harmonic mean, and micro averaged precision, recall and F1 coincide with accuracy for single label data.", "quantifier": "for every label vectors, every beta>0", "why_tests_cant": "Infinite data, zero-division corners.", "anchors": ["metrics/classification.go: PrecisionRecallFScoreSupport"]}
{"id": "C28", "title": "Confusion matrix counts every sample once in the right cell", "statement": "Entry (r,c) of ConfusionMatrix is the total weight of samples with true class r and predicted class c, and the entries sum to the total weight, for any predicted labels.", "quantifier": "for every label vectors and weights, including predicted labels absent from the truth", "why_tests_cant": "Tests only use predictions drawn from the true classes.", "anchors": ["metrics/classification.go: ConfusionMatrix, internalConfusionMatrix"]}
{"id": "C29", "title": "ROC AUC equals the Mann-Whitney statistic", "statement": "ROCAUCScore of binary labels and scores is the probability that a random positive outranks a random negative, ties counting one half; hence it lies in [0,1] and is invariant under reordering samples and under strictly increasing rescoring.", "quantifier": "for every list of labelled scores with both classes present, every tie pattern and every order in which the sort leaves ties", "why_tests_cant": "Needs all tie patterns and orders.", "anchors": ["metrics/ranking.go: binaryClfCurve, ROCCurve, AUC, ROCAUCScore"]}
{"id": "C30", "title": "ROC curve is monotone from (0,0) to (1,1)", "statement": "ROCCurve returns non decreasing fpr and tpr, starting at fpr 0 and ending at (1,1), with strictly decreasing thresholds, each point giving the rates of scores >= threshold.", "quantifier": "for every list of labelled scores with both classes present", "why_tests_cant": "Infinite data and ties.", "anchors": ["metrics/ranking.go: ROCCurve, binaryClfCurve"]}
{"id": "C31", "title": "Regression scores: bounds and identity of indiscernibles", "statement": "R2Score is at most 1, equals 1 on a perfect prediction and 0 for the mean predictor; MeanSquaredError and MeanAbsoluteError are nonnegative and zero exactly for a perfect prediction; sample weights weigh samples.", "quantifier": "for every Y, prediction and weights", "why_tests_cant": "Infinite data; tests with weights are rare.", "anchors": ["metrics/regression.go: R2Score, MeanSquaredError, MeanAbsoluteError"]}
{"id": "C32", "title": "DBSCAN clusters are the density-connected components", "statement": "After DBSCAN.Fit, two core samples have the same label iff they are linked by a chain of core samples each in the neighbourhood of the previous one; a non-core sample is noise (-1) iff no core sample has it in its neighbourhood, otherwise it carries the label of one such core sample; labels are exactly 0..k-1.", "quantifier": "for every neighbourhood relation and core set (every data set, eps, metric)", "why_tests_cant": "Reachability over all graphs; termination for all.", "anchors": ["cluster/dbscan.go: DBSCAN.Fit, dbscanInner"]}
{"id": "C33", "title": "DBSCAN core samples meet MinSamples", "statement": "A sample is reported in CoreSampleIndices iff it has at least MinSamples neighbours within Eps, itself included, and a second Fit reports only the second data set's core samples.", "quantifier": "for every data set, Eps, MinSamples, and every sequence of Fits", "why_tests_cant": "Exact-threshold cases and refits are not tested.", "anchors": ["cluster/dbscan.go: DBSCAN.Fit"]}
{"id": "C34", "title": "KMeans assigns every point to a nearest centroid", "statement": "Predict returns for each row the lowest index of the centroids at minimal distance; each Fit iteration replaces every non-empty cluster's centroid by the mean of its points and does not increase the within-cluster sum of squares of the non-empty clusters.", "quantifier": "for every data set and centroids", "why_tests_cant": "Infinite data and ties.", "anchors": ["cluster/kmeans.go: KMeans.Predict, _nearest, Fit"]}
{"id": "C35", "title": "SVM kernel cache is transparent", "statement": "For a symmetric kernel, every value returned by the cached kernel equals the kernel evaluated directly, whatever the sequence of previous requests and evictions.", "quantifier": "for every request history and every cache capacity", "why_tests_cant": "Eviction requires >65536 distinct pairs; no test reaches it.", "anchors": ["svm/cache.go: cachedKernel"]}
{"id": "C36", "title": "SVM kernel cache stays within its capacity", "statement": "The number of cached off-diagonal entries never exceeds the configured capacity.", "quantifier": "for every request history and every CacheSize", "why_tests_cant": "Eviction is never reached by tests.", "anchors": ["svm/cache.go: cachedKernel"]}
{"id": "C37", "title": "SVC training keeps the dual feasible", "statement": "At every moment of SVC training with labels -1/+1, all multipliers lie in [0,C] and the label-weighted sum of multipliers stays 0.", "quantifier": "for every kernel, data set, random choice of partner index, number of passes", "why_tests_cant": "Invariant over all histories of updates.", "anchors": ["svm/svm.go: svmTrain"]}
{"id": "C38", "title": "SVR training keeps the dual feasible", "statement": "At every moment of SVR training all multipliers lie in [-C,C] and sum to 0.", "quantifier": "for every kernel, data, random choices, number of passes", "why_tests_cant": "Invariant over all histories of updates.", "anchors": ["svm/svr.go: svrTrain"]}
{"id": "C39", "title": "KNeighbors returns k nearest fitted samples in order", "statement": "KNeighbors (brute force) returns for each query k distinct sample indices, in order of non decreasing distance, and no sample left out is closer than one returned.", "quantifier": "for every data set, query, distance function, and k <= number of samples", "why_tests_cant": "All tie patterns and data.", "anchors": ["neighbors/unsupervised.go: NearestNeighbors.KNeighbors"]}
{"id": "C40", "title": "RadiusNeighbors returns exactly the samples within the radius", "statement": "RadiusNeighbors (brute force) returns exactly the fitted samples whose distance to the query is at most the radius, each once, with its distance.", "quantifier": "for every data set, query, distance function, radius", "why_tests_cant": "Boundary cases have measure zero.", "anchors": ["neighbors/unsupervised.go: NearestNeighbors.RadiusNeighbors"]}
{"id": "C41", "title": "KD-tree query is exact", "statement": "With eps=0, KDTree.Query returns the same k smallest distances as exhaustive search.", "quantifier": "for every point set with any number of features, leaf size, query, k, p>=1", "why_tests_cant": "Pruning mistakes appear for special geometries only.", "anchors": ["neighbors/kdtree.go: KDTree.Query, _query, NewKDTree"]}
{"id": "C42", "title": "KD-tree construction terminates on every data set", "statement": "NewKDTree returns a tree whose leaves partition the sample indices, for every finite data set and leaf size >=1.", "quantifier": "for every data set, including repeated points", "why_tests_cant": "Tests use random data in general position without duplicates.", "anchors": ["neighbors/kdtree.go: NewKDTree, _build"]}
{"id": "C43", "title": "Minkowski distance is the p-norm distance", "statement": "MinkowskiDistance(p)(a,b) is (sum |a_i-b_i|^p)^(1/p): zero iff equal, symmetric, and for one feature it is |a-b|.", "quantifier": "for every pair of vectors of any dimension", "why_tests_cant": "One-dimensional data is a special code path.", "anchors": ["neighbors/distance.go: MinkowskiDistanceP, MinkowskiDistance"]}
{"id": "C44", "title": "KNeighborsClassifier predicts a majority class and probabilities sum to one", "statement": "The predicted class is among those with the largest vote weight over the k neighbours; PredictProba rows are nonnegative and sum to 1; uniform weights.", "quantifier": "for every neighbour list, class list and map iteration order", "why_tests_cant": "Ties depend on randomised map order.", "anchors": ["neighbors/classification.go: KNeighborsClassifier.Predict, PredictProba"]}
{"id": "C45", "title": "GaussianNB incremental fit equals batch fit", "statement": "PartialFit on successive batches gives the class counts, priors, means and variances of Fit on all the rows.", "quantifier": "for every sequence of labelled batches", "why_tests_cant": "Needs all histories of batches.", "anchors": ["naive_bayes/naivebayes.go: GaussianNB.PartialFit, updateMeanVariance"]}
{"id": "C46", "title": "Elastic-net coordinate descent never increases the objective and tracks the residual", "statement": "During ElasticNet.Fit each coordinate update does not increase 1/2|y-Xw|^2+alpha|w|_1+beta/2|w|^2 (it minimises it along that coordinate), the maintained residual always equals y-Xw, and with Positive all coefficients stay nonnegative.", "quantifier": "for every data set, regularisation, starting point, order of coordinates and number of iterations", "why_tests_cant": "Invariant over all histories over the reals.", "anchors": ["linear_model/cdfast.go: enetCoordinateDescent"]}
{"id": "C47", "title": "The reported duality gap certifies optimality", "statement": "The Gap returned by ElasticNet.Fit bounds how far the returned coefficients' objective is above the objective of any other (nonnegative, when Positive) coefficient vector.", "quantifier": "for every data set, regularisation and coefficient vector", "why_tests_cant": "Quantifies over all competitors.", "anchors": ["linear_model/cdfast.go: enetCoordinateDescent"]}
{"id": "C48", "title": "Linear models: intercept recombination is exact", "statement": "With FitIntercept (and Normalize on non constant columns), predictions from Coef and Intercept equal the mean of Y plus the centred/scaled model's prediction; so if the centred problem's solution satisfies the normal equations, training residuals sum to zero and are orthogonal to every feature.", "quantifier": "for every data set with at least one row", "why_tests_cant": "Infinite data; constant column with Normalize is a corner.", "anchors": ["linear_model/Base.go: PreprocessData, LinearModel.setIntercept, DecisionFunction"]}
{"id": "C49", "title": "Loss functions return the gradient of the loss they report", "statement": "For SquareLoss the gradient written equals the derivative of the returned J with respect to each coefficient (identity activation, L1Ratio=0), for every Alpha.", "quantifier": "for every data set, coefficients and Alpha>=0", "why_tests_cant": "Only Alpha=1 or 0 is tested.", "anchors": ["linear_model/loss.go: SquareLoss, regularization"]}
{"id": "C50", "title": "Mini-batch loop visits every training row once per epoch", "statement": "The mini-batch ranges of an epoch are consecutive, non-empty, at most BatchSize long and cover [0,n) exactly once.", "quantifier": "for every sample count and batch size>=1", "why_tests_cant": "Division remainders: all (n,batch) pairs.", "anchors": ["neural_network/basemlp64.go: fitStochastic", "linear_model/Base.go: LinFit"]}
{"id": "C51", "title": "MLP fit restores the caller's row order", "statement": "When MLP fitting shuffles rows in place, after Fit returns X and Y hold their rows in the original order, paired as before.", "quantifier": "for every sequence of swaps performed by shuffling and by sorting back", "why_tests_cant": "All permutation histories.", "anchors": ["neural_network/basemlp64.go: fitStochastic", "neural_network/indexedxy.go: indexedXY"]}
{"id": "C52", "title": "MLP tanh activation and its derivative match", "statement": "The hidden activation named tanh computes tanh and the derivative used by backpropagation is the derivative of the forward function.", "quantifier": "for every real input", "why_tests_cant": "Continuum.", "anchors": ["neural_network/basemlp64.go: Activations64, Derivatives64"]}
{"id": "C53", "title": "MLP early stopping restores the best parameters seen", "statement": "With EarlyStopping, after Fit the network holds the parameters of the epoch with the best validation score.", "quantifier": "for every history of validation scores, including negative ones", "why_tests_cant": "Histories with all negative R2 scores are not tested.", "anchors": ["neural_network/basemlp64.go: updateNoImprovementCount, fitStochastic"]}
{"id": "C54", "title": "Class probabilities are a distribution and the predicted class is their argmax", "statement": "Softmax rows are positive and sum to 1 and the decoded label has exactly one 1, at the first maximal probability; for one column the label is 1 iff probability > 1/2.", "quantifier": "for every real score matrix", "why_tests_cant": "Continuum and ties.", "anchors": ["linear_model/logistic.go: logregActivation, toLogits", "neural_network/basemlp64.go: Activations64, toLogits64"]}
{"id": "C55", "title": "Gaussian process kernels are symmetric and Diag is the diagonal of Eval", "statement": "For every kernel built from Constant, White, RBF, DotProduct, Sum, Product: Eval(X,X) is symmetric and Diag(X)[i] = Eval(X,X)[i,i].", "quantifier": "for every kernel expression and every data set", "why_tests_cant": "Kernels form an infinite recursive family.", "anchors": ["gaussian_process/kernels/kernels.go: Kernel, Sum, Product, ConstantKernel, WhiteKernel, RBF, DotProduct"]}
{"id": "C56", "title": "CloneWithTheta sets the hyperparameters of the clone", "statement": "For every kernel expression, CloneWithTheta(theta).Theta() = theta, the clone otherwise evaluates like the original, and the original is unchanged.", "quantifier": "for every kernel expression and theta of the right length", "why_tests_cant": "Infinite recursive family.", "anchors": ["gaussian_process/kernels/kernels.go: CloneWithTheta, hyperparameters"]}
{"id": "C57", "title": "Interp1d interpolates", "statement": "Interp1d of points with distinct abscissae passes through every point, is linear between neighbours, and stays within the neighbouring ordinates inside the range; the order in which points are given is irrelevant.", "quantifier": "for every point set of size >=2 and every evaluation abscissa", "why_tests_cant": "Continuum.", "anchors": ["interpolate/interpolate.go: Interp1d"]}
{"id": "C58", "title": "CubicSpline interpolates smoothly", "statement": "CubicSpline passes through every data point and is once differentiable at the knots; when the slopes solve the linear system it is twice differentiable with zero second derivative at the ends.", "quantifier": "for every strictly increasing abscissae, n>=2", "why_tests_cant": "Continuum.", "anchors": ["interpolate/cubic.go: CubicSpline"]}
{"id": "C59", "title": "Octave file reading: round trip, truncation and chunking", "statement": "LoadOctaveBin returns exactly the matrices written in a well formed file; its result depends only on the file's bytes, not on how the underlying reader splits them; a truncated file is reported rather than silently accepted.", "quantifier": "for every list of named matrices, every truncation point, every chunking of reads", "why_tests_cant": "Every crash point and every read schedule.", "anchors": ["datasets/octave.go: LoadOctaveBin"]}
{"id": "C60", "title": "Gradient clipping bounds the gradient norm without changing its direction", "statement": "In SGDOptimizer with GradientClipping=c>0, the gradient used for each output has L2 norm at most c, is a nonnegative multiple of the raw gradient and equals it when its norm is at most c.", "quantifier": "for every gradient matrix and c>0", "why_tests_cant": "Continuum.", "anchors": ["base/optimizers.go: SGDOptimizer.GetUpdate, colNorm"]}
{"id": "C61", "title": "Refitting a linear regression equals fitting a fresh one", "statement": "After Fit, a linear regression predicts as a fresh one with the same settings fitted on the same data, whatever it was fitted on before and whatever settings it had.", "quantifier": "for every history of fits and setting changes", "why_tests_cant": "Histories of setting changes between fits are unbounded.", "anchors": ["linear_model/Base.go: LinearRegression.Fit, LinearModel.setIntercept"]}
{"id": "C62", "title": "Pipeline score is the score of its predictions", "statement": "Pipeline.Score(X,Y) equals the final step's metric between Y and Pipeline.Predict(X).", "quantifier": "for every list of steps, X and Y", "why_tests_cant": "Tests use pipelines that do not transform the target.", "anchors": ["pipeline/pipeline.go: Pipeline.Score, Pipeline.Predict"]}
{"id": "C63", "title": "MultiLabelBinarizer round trip", "statement": "MultiLabelBinarizer.Transform2 of fitted labels encodes each row in width*classes cells and InverseTransform recovers every label, for tables of any width, including rows of different lengths.", "quantifier": "for every table of labels (numbers or strings)", "why_tests_cant": "Infinite family of tables, widths and label sets.", "anchors": ["preprocessing/label.go: MultiLabelBinarizer.Fit2, Transform2, InverseTransform"]}
{"id": "C64", "title": "Variance helper divides by the number of rows", "statement": "NumpyLike.Var returns for every column the population variance of its cells.", "quantifier": "for every matrix shape and content", "why_tests_cant": "Only shapes with as many rows as columns hide a wrong divisor.", "anchors": ["preprocessing/data.go: NumpyLike.Var, Std"]}
{"id": "C65", "title": "MaxAbsScaler maps into [-1,1], is invertible and incremental", "statement": "After Fit, Transform of the training data lies in [-1,1] with a bound attained on every non-zero column; InverseTransform undoes Transform; Fit then PartialFit on batches equals Fit on all rows; PartialFit works on a new scaler; NSamplesSeen counts the rows since the last Fit.", "quantifier": "for every data, batch history and previous state", "why_tests_cant": "Needs all histories of Fit and PartialFit.", "anchors": ["preprocessing/data.go: MaxAbsScaler"]}
{"id": "C66", "title": "RobustScaler depends only on the data of the last Fit", "statement": "After Fit, Median and QuantileDivider are empirical quantiles of the fitted column whatever was fitted before, and InverseTransform undoes Transform.", "quantifier": "for every column, quantile pair and earlier fits", "why_tests_cant": "Tests fit a scaler once; the reused buffer only matters on a second fit with another row count.", "anchors": ["preprocessing/data.go: RobustScaler"]}
{"id": "C67", "title": "KernelCenterer centres rows and columns", "statement": "The centred training kernel has zero row and column sums, and Transform of a kernel between m new samples and the training samples has m rows.", "quantifier": "for every kernel matrix", "why_tests_cant": "Tests use one square matrix.", "anchors": ["preprocessing/data.go: KernelCenterer.Fit, Transform"]}
{"id": "C68", "title": "Normalizer scales every sample to unit norm", "statement": "Transform gives every sample (Axis 1) or feature (Axis 0) norm 1, keeping its direction, and leaves zero vectors unchanged, for matrices of any shape.", "quantifier": "for every matrix, axis and norm", "why_tests_cant": "Tests use square matrices, for which a wrong dimension is invisible.", "anchors": ["preprocessing/data.go: Normalizer.Transform"]}
{"id": "C69", "title": "Binarizer thresholds every cell", "statement": "Transform sets a cell to 1 when it exceeds the threshold and to 0 otherwise, for any matrix including a view of a wider one.", "quantifier": "for every matrix, stride and threshold", "why_tests_cant": "Tests use contiguous matrices.", "anchors": ["preprocessing/data.go: Binarizer.Transform"]}
{"id": "C70", "title": "Box-Cox power transform is invertible", "statement": "With method box-cox, InverseTransform recovers every positive value from its transform, for every lambda.", "quantifier": "for every lambda and every positive real value", "why_tests_cant": "Continuum of inputs; values below 1 and lambda 0 are special.", "anchors": ["preprocessing/data.go: boxCoxTransform, boxCoxInverseTransform"]}
{"id": "C71", "title": "PowerTransformer.Transform leaves its input unchanged", "statement": "After Transform the caller's X still holds the values it held before.", "quantifier": "for every matrix and fitted transformer", "why_tests_cant": "Aliasing of the input is not visible in the returned value that tests compare.", "anchors": ["preprocessing/data.go: PowerTransformer.Transform", "base: ToDense"]}
{"id": "C72", "title": "QuantileTransformer maps data monotonically into (0,1)", "statement": "After Fit, Transform maps every value of the training range into [0,1], preserves the order of the values, and maps the q-th quantile to q/(NQuantiles-1), for every column.", "quantifier": "for every training matrix, number of quantiles and value", "why_tests_cant": "Infinite data; order, ties and number of columns all matter.", "anchors": ["preprocessing/data.go: QuantileTransformer.Fit, Transform"]}
{"id": "C73", "title": "Averaging a binary score over labels", "statement": "ROCAUCScore/AveragePrecisionScore with several 0/1 labels: macro is the mean of the label scores, weighted their mean weighted by the positives of each label, micro the score of all cells, samples the mean of the per-sample scores; sample weights follow their samples.", "quantifier": "for every metric, label and score matrices", "why_tests_cant": "Infinite inputs; tests use few shapes and no weights.", "anchors": ["metrics/base.go: averageBinaryScore, typeOfTarget"]}
{"id": "C74", "title": "Precision-recall curve", "statement": "PrecisionRecallCurve returns increasing thresholds, exactly the scores above which recall is not yet full, with the precision and recall of the rows scored at least the threshold, ending with (1,0); AveragePrecisionScore is the sum of precision times recall gained and lies in [0,1].", "quantifier": "for every labelled scores with positive weights and a positive row, every order of ties", "why_tests_cant": "Infinite data and ties.", "anchors": ["metrics/ranking.go: PrecisionRecallCurve, AveragePrecisionScore"]}
{"id": "C75", "title": "KNeighborsGraph", "statement": "In connectivity mode entry (i,j) of KNeighborsGraph is 1 exactly when fitted sample j is one of the k nearest of query i (self excluded on request), otherwise 0; in distance mode that entry is the distance.", "quantifier": "for every data set, query set, k and both modes", "why_tests_cant": "Wrong cells look plausible on small data.", "anchors": ["neighbors/unsupervised.go: KNeighborsGraph"]}
{"id": "C76", "title": "DBSCAN uses the configured metric", "statement": "DBSCAN.Fit measures neighbourhoods with the configured metric: power 1 for manhattan and cityblock, 2 for euclidean, and the configured P for any other Minkowski metric.", "quantifier": "for every metric name and P", "why_tests_cant": "Tests only use the euclidean default.", "anchors": ["cluster/dbscan.go: DBSCAN.Fit", "neighbors/unsupervised.go: NearestNeighbors.Fit"]}
{"id": "C77", "title": "KMeans.Fit terminates at a fixed point", "statement": "KMeans.Fit returns for every data set with at least NClusters rows, whatever the parallel schedule, and afterwards the centroid of every non-empty cluster is the mean of the training rows that Predict assigns to it, while the centroid of an empty cluster is the origin (so some centroid is the origin whenever there are fewer distinct rows than clusters); with fewer rows it panics.", "quantifier": "for every data set, number of clusters, summation order, Euclidean distance in exact arithmetic", "why_tests_cant": "Termination over all inputs, including ties and empty clusters.", "anchors": ["cluster/kmeans.go: KMeans.Fit, predict"]}
{"id": "C78", "title": "Nearest-centroid classifier assigns the class of the nearest centroid", "statement": "After Fit, NearestCentroid.Predict assigns to every query row a class whose centroid (mean of its training rows) is at least as close to the row, in Euclidean distance, as every other class's centroid.", "quantifier": "all training sets, labels, feature counts and query rows", "why_tests_cant": "Tests use one data set and check a score; agreement on every query, feature count and class layout needs a proof.", "anchors": ["neighbors/nearest_centroid.go:34-101", "neighbors/unsupervised.go:39-48"]}
{"id": "C79", "title": "KNN regression is a weighted mean of the nearest targets", "statement": "KNeighborsRegressor.Predict returns the mean of the targets of k nearest training samples (weighted by inverse distance when so configured), and this value never leaves the range of those targets.", "quantifier": "all training sets, k up to the sample count, nonnegative distances, weightings, query rows", "why_tests_cant": "A test compares a handful of values; the range bound concerns every neighbour configuration.", "anchors": ["neighbors/regression.go:62-109"]}
{"id": "C80", "title": "Class list and class counts agree", "statement": "After fitting a neighbour classifier, the classes are the distinct labels in increasing order and the i-th class count is the number of training labels equal to the i-th class, on every run.", "quantifier": "all label columns and map iteration orders", "why_tests_cant": "Map iteration order is random, a test run sees a single order.", "anchors": ["neighbors/classification.go:158-183"]}
{"id": "C81", "title": "Every SVC training update improves the dual objective", "statement": "During SVC training with labels -1/+1 and a positive tolerance, each update that is kept changes exactly two multipliers, strictly increases the dual objective, and leaves the updated sample with an interior multiplier exactly on its margin.", "quantifier": "all symmetric kernels, labels, feasible multipliers, random partner choices", "why_tests_cant": "Tests only look at final accuracy; monotonicity concerns each step of each run.", "anchors": ["svm/svm.go:79-138"]}
{"id": "C82", "title": "SVC training terminates", "statement": "Fitting an SVC on two or more samples labelled -1/+1 with positive tolerance and C>=0 stops after finitely many passes for every kernel and every random source.", "quantifier": "all data sets, kernels, random streams, pass limits", "why_tests_cant": "Termination on all inputs cannot be observed by running some.", "anchors": ["svm/svm.go:75-149"]}
{"id": "C83", "title": "Fitting an SVC always yields a usable model", "statement": "After training on any data labelled -1/+1 a model is available, whose prediction is 1 exactly when the decision value over its support samples is nonnegative.", "quantifier": "all label vectors, kernels, random streams", "why_tests_cant": "Degenerate label vectors (a single class) are not in the tests.", "anchors": ["svm/svm.go:150-198"]}
{"id": "C84", "title": "SVC score uses the labels it was fitted with", "statement": "For samples labelled as in Fit (-1/+1), Score is the fraction of samples whose label is the sign of the decision value.", "quantifier": "all models and labelled samples", "why_tests_cant": "The only test rescales labels to 0/1 before scoring.", "anchors": ["svm/svm.go:178-198", "svm/svm.go:331-334"]}
{"id": "C85", "title": "Every SVR training update reduces the pair's residuals", "statement": "During SVR training each update that is kept changes two multipliers so that the residuals of both samples under the new model are opposite and their absolute sum strictly decreases; the fitted regressor predicts the offset plus the contributions of the samples with multipliers above the tolerance.", "quantifier": "all symmetric kernels, targets, multipliers, random choices", "why_tests_cant": "The residuals are updated incrementally in the code and never recomputed by a test.", "anchors": ["svm/svr.go:92-215"]}
{"id": "C86", "title": "GaussianNB can be fitted again; unknown labels are refused", "statement": "Fit on an estimator that was fitted before discards the old model and trains on the new data; PartialFit with a label outside the declared classes panics.", "quantifier": "for every estimator state and every data set", "why_tests_cant": "All pairs of histories and data sets.", "anchors": ["naive_bayes/naivebayes.go: GaussianNB.Fit, PartialFit"]}
{"id": "C87", "title": "GaussianNB predictions follow Bayes' rule", "statement": "Predict returns the (first) class maximising prior times Gaussian likelihood; PredictProbas returns the normalised posteriors, positive and summing to 1, PredictLogProbas their logarithms.", "quantifier": "for every trained model with positive priors and variances and every row", "why_tests_cant": "Continuum of inputs, ties.", "anchors": ["naive_bayes/naivebayes.go: BaseNB.Predict, PredictLogProbas, PredictProbas, jointLogLikelihood"]}
{"id": "C88", "title": "ElasticNet reports how long coordinate descent ran", "statement": "The NIter reported by ElasticNet is the number of sweeps run and at most MaxIter; stopping earlier than MaxIter means the reported gap is below the reported tolerance.", "quantifier": "for every data set, regularisation and iteration limit", "why_tests_cant": "All histories of the solver.", "anchors": ["linear_model/cdfast.go: enetCoordinateDescent"]}
{"id": "C89", "title": "CrossEntropyLoss returns the gradient of the loss it reports", "statement": "With the logistic activation, the gradient written by CrossEntropyLoss is the gradient of the J it returns, including the elastic-net penalty, wherever J is differentiable.", "quantifier": "for every data set, targets, coefficients, Alpha, L1Ratio and number of outputs", "why_tests_cant": "Continuum.", "anchors": ["linear_model/loss.go: CrossEntropyLoss"]}
{"id": "C90", "title": "LogLoss returns the gradient of the loss it reports", "statement": "With the logistic activation and no penalty, the gradient written by LogLoss is the gradient of the J it returns.", "quantifier": "for every data set, targets and coefficients", "why_tests_cant": "Continuum; tests use another loss.", "anchors": ["linear_model/loss.go: LogLoss"]}
{"id": "C91", "title": "SGDRegressor descends along the gradient of its loss", "statement": "The direction given to the optimiser by SGDRegressor.Fit is the gradient of the loss it minimises.", "quantifier": "for every data set, coefficients, Alpha and L1Ratio", "why_tests_cant": "Continuum.", "anchors": ["linear_model/Base.go: SGDRegressor.Fit"]}
{"id": "C92", "title": "LinFit returns the best epoch", "statement": "LinFit runs epochs until convergence or the epoch limit, returns the parameters of the first epoch with the least loss among those run together with that loss, and reports the number of epochs run.", "quantifier": "for every data set, loss, optimiser and epoch limit", "why_tests_cant": "All loss histories, including NaN losses.", "anchors": ["linear_model/Base.go: LinFit"]}
{"id": "C93", "title": "Backpropagation writes the gradient of the loss it returns", "statement": "For a batch, the gradients computed by training for all coefficients and intercepts are the derivative of the returned loss (data loss plus L2 penalty) in every direction of parameter space.", "quantifier": "for every depth and layer sizes, every hidden activation, data, targets and parameters (away from the kinks of relu and the clamping of probabilities)", "why_tests_cant": "A numerical check covers one network at one point; sign errors in one activation's derivative or in one output type only show on networks using it.", "anchors": ["neural_network/basemlp64.go: backprop, computeLossGrad, Activations64, Derivatives64", "linear_model/logistic.go: backprop"]}
{"id": "C94", "title": "Training stops exactly by the no-improvement rule", "statement": "Without early stopping a fit runs to MaxIter or to the first epoch at which the last NIterNoChange+1 epochs all failed to lower the loss by Tol; with the adaptive learning rate such a stall divides the rate by 5 and the run ends at the first stall whose rate is at most 1e-6; the reported number of epochs is the number run; counters left by an earlier fit have no influence.", "quantifier": "for every sequence of losses/scores, tolerance, patience, and state left by earlier fits", "why_tests_cant": "Off-by-one and stale-counter errors need particular loss sequences or a second fit.", "anchors": ["neural_network/basemlp64.go: fitStochastic, updateNoImprovementCount"]}
{"id": "C95", "title": "Optimisers perform the textbook updates", "statement": "SGD with (Nesterov) momentum moves each parameter by the discounted sums of its gradients, and Adam by its bias-corrected moments, each parameter independently of the others.", "quantifier": "for every sequence of gradients and any number of updates and parameters", "why_tests_cant": "Convergence tests pass with wrong step sizes; the error depends on the number of parameters and on the position of each.", "anchors": ["neural_network/basemlp64.go: SGDOptimizer64, AdamOptimizer64"]}
{"id": "C96", "title": "A smaller last batch is treated like any other batch", "statement": "For a batch with fewer rows than the batch size the loss and the gradients are the means over the rows of that batch.", "quantifier": "for every batch size and every smaller number of rows, whatever the previous batch left in the buffers", "why_tests_cant": "Tests use batch sizes dividing the sample count.", "anchors": ["neural_network/basemlp64.go: fitStochastic, backprop, matRowMean64, LossFunctions64"]}
{"id": "C97", "title": "Validation rows are not trained on", "statement": "With EarlyStopping the rows used to compute validation scores are not used in any update of the same fit.", "quantifier": "for every data set, validation size and shuffling", "why_tests_cant": "The leak only makes scores look better; no output is obviously wrong.", "anchors": ["neural_network/basemlp64.go: fitStochastic"]}
{"id": "C98", "title": "Label decoding of the network inverts its label encoding", "statement": "The class decoded for each output is the one whose column is the first largest among that output's columns; in particular decoding inverts one-hot encoding.", "quantifier": "for every number of outputs and classes", "why_tests_cant": "Tests use a single output.", "anchors": ["neural_network/basemlp64.go: LabelBinarizer64.InverseTransform"]}
{"id": "C99", "title": "Validation scores have their textbook range and meaning", "statement": "The accuracy used for early stopping is in [0,1] and 1 exactly for equal rows; the coefficient of determination is at most 1, 1 exactly for perfect predictions, 0 for the mean predictor and undefined exactly for constant targets.", "quantifier": "for every target and prediction list", "why_tests_cant": "Range claims over all inputs.", "anchors": ["neural_network/basemlp64.go: accuracyScore64, r2Score64"]}
{"id": "C100", "title": "Kernel matrices are positive semidefinite", "statement": "For every kernel expression with nonnegative constants and noise levels, the matrix Eval(X,X) has a nonnegative quadratic form, so it is a valid covariance.", "quantifier": "for every kernel expression and every data set", "why_tests_cant": "Kernels form an infinite recursive family and the data are arbitrary reals.", "anchors": ["gaussian_process/kernels/kernels.go: Eval, ConstantKernel, WhiteKernel, RBF, DotProduct, Sum, Product, Exponentiation"]}
{"id": "C101", "title": "IsStationary means translation invariance", "statement": "If IsStationary() is true, translating both data sets by the same vector does not change Eval.", "quantifier": "for every kernel expression, data and translation", "why_tests_cant": "Kernels form an infinite recursive family and the data are arbitrary reals.", "anchors": ["gaussian_process/kernels/kernels.go: IsStationary, StationaryKernelMixin"]}
{"id": "C102", "title": "The kernel gradient is the derivative with respect to Theta", "statement": "Eval(X,nil,true) returns one n x n slice per entry of Theta(), each the entrywise derivative of Eval(X,X) with respect to that entry.", "quantifier": "for every kernel expression and every data set", "why_tests_cant": "Derivatives at all points of an infinite family.", "anchors": ["gaussian_process/kernels/kernels.go: Eval"]}
{"id": "C103", "title": "LogMarginalLikelihood is the log density of the training outputs", "statement": "The value of LogMarginalLikelihood(theta) is the sum over output columns of the log density of a zero-mean normal distribution whose covariance is the kernel matrix plus alpha.", "quantifier": "for every kernel, training set and theta with a positive definite covariance", "why_tests_cant": "Real-valued identity over all matrices.", "anchors": ["gaussian_process/gpr.go: LogMarginalLikelihood"]}
{"id": "C104", "title": "The gradient of LogMarginalLikelihood is its derivative", "statement": "Each entry of the gradient returned by LogMarginalLikelihood(theta,true) is the derivative of the returned value with respect to that entry of theta.", "quantifier": "for every kernel, training set and theta", "why_tests_cant": "Derivatives at all points.", "anchors": ["gaussian_process/gpr.go: LogMarginalLikelihood"]}
{"id": "C105", "title": "The Gaussian process regressor fits and predicts", "statement": "After Fit, Predict returns the posterior mean at the new rows; Fit accepts a scalar alpha or one per training row; before Fit, Predict returns the prior mean zero.", "quantifier": "for every kernel, training set and new rows", "why_tests_cant": "All sizes and contents.", "anchors": ["gaussian_process/gpr.go: Fit, PredictEx, Predict"]}
{"id": "C106", "title": "RBF length scales belong to features", "statement": "The RBF kernel value is unchanged when a feature and its length scale are multiplied by the same factor; a single length scale stands for the same scale on every feature; with one scale, similarity orders pairs of rows by distance; a matrix is computed exactly when the number of length scales is one or the number of features.", "quantifier": "all numbers of features, all length scales, all rows", "why_tests_cant": "A test fixes a few rows and scales and compares against numbers; it cannot show which scale acts on which feature for all inputs.", "anchors": ["gaussian_process/kernels/kernels.go:547-584"]}
{"id": "C107", "title": "Interp2d is bilinear", "statement": "On points without duplicates, with at least two points at every first abscissa, Interp2d passes through every point; between neighbouring first abscissae, and below the smallest or above the greatest, it is the line in x between the one-dimensional interpolations of the neighbouring slices; it reproduces bilinear data; the order of the points is irrelevant.", "quantifier": "all point sets of any size, all x and y, all results the unstable sort may leave", "why_tests_cant": "The test evaluates three positions of two grids; the scan moves two indices at once and ties at grid abscissae depend on how far each has moved.", "anchors": ["interpolate/interpolate.go:75-111"]}
{"id": "C108", "title": "SGDOptimizer: momentum, decay and independence of entries", "statement": "With momentum, every update is the sum of the updates the variant would have made without momentum, each discounted by the momentum once per later step; plain SGD divides the step by the root of the step number and a linear decay; the parameters move by the sum of the updates; an entry's update depends only on that entry's gradients (on its column's with clipping).", "quantifier": "all variants, all sequences of gradients of any length, all sizes", "why_tests_cant": "A test runs one optimiser on one problem; formulas over whole histories and non-interference need all sequences.", "anchors": ["base/optimizers.go:172-305"]}
{"id": "C109", "title": "Adam is bias-corrected", "statement": "The update of the Adam optimiser is -StepSize times the bias-corrected weighted mean of the gradients over the root of the bias-corrected weighted mean of their squares plus Epsilon; with a constant gradient g it is -StepSize g/(|g|+Epsilon) at every step.", "quantifier": "all settings, all sequences of gradients", "why_tests_cant": "The formula is over whole histories.", "anchors": ["base/optimizers.go:271-290"]}
{"id": "C110", "title": "Adaptive optimisers normalise by the gradients seen and descend", "statement": "Adagrad, RMSProp and Adadelta divide each gradient by a root of accumulated squared gradients, so updates do not grow with the scale of the gradients; without momentum every entry moves against its gradient.", "quantifier": "all settings in range, all sequences of gradients, all entries", "why_tests_cant": "All histories; small gradients take a branch tests do not distinguish.", "anchors": ["base/optimizers.go:221-270"]}
{"id": "C111", "title": "BayesianRidge returns the ridge solution for the precisions it reports", "statement": "After Fit, Coef minimises Alpha*||Y-XW||^2 + Lambda*||W||^2 (X, Y centred and scaled) for the reported Alpha and Lambda, the iteration stops at the first round whose coefficients moved by less than Tol or after NIter rounds, and Sigma is the posterior covariance.", "quantifier": "all data sets, numbers of samples, features and outputs, all positive priors, all NIter and Tol", "why_tests_cant": "tests compare one fitted data set with stored numbers; the relation between reported precisions and coefficients is never checked", "anchors": ["linear_model/bayes.go:48-204"]}
{"id": "C112", "title": "BayesianRidge updates its precisions by evidence maximisation", "statement": "In every round the weight precision becomes (gamma+2*Lambda1)/(sum of squared coefficients+2*Lambda2) and the noise precision (n-gamma+2*Alpha1)/(residual sum of squares+2*Alpha2), where gamma is the effective number of parameters.", "quantifier": "all data sets and all positive current precisions", "why_tests_cant": "a wrong update still converges to plausible coefficients", "anchors": ["linear_model/bayes.go:136-159"]}
{"id": "C113", "title": "BayesianRidge.Predict2 returns the predictive standard deviation", "statement": "The second result of Predict2 for a row x is sqrt(x' Sigma x + 1/Alpha), with x standardised as in Fit.", "quantifier": "all rows, covariances and precisions", "why_tests_cant": "the only test prints one number", "anchors": ["linear_model/bayes.go:240-264"]}
{"id": "C114", "title": "PCA keeps the most informative directions", "statement": "The sum of squares of Transform(X) on the training data is the largest that any NComponents orthonormal directions can collect; ExplainedVarianceRatio is non-negative, descending, sums to 1; with MinVarianceRatio, NComponents is the least number of leading ratios that reach it.", "quantifier": "all matrices, numbers of components and thresholds", "why_tests_cant": "optimality over all orthonormal frames is not testable", "anchors": ["preprocessing/pca.go:28-66"]}
{"id": "C115", "title": "PCA InverseTransform undoes Transform", "statement": "InverseTransform(Transform(A)) is A when all components are kept, and the projection of A on the kept directions otherwise; it never panics.", "quantifier": "all matrices and numbers of components", "why_tests_cant": "tests use all components only", "anchors": ["preprocessing/pca.go:56-88"]}
{"id": "C116", "title": "PCA fits depend only on settings and data", "statement": "Fitting a PCA again gives the result of fitting a new one with the same settings.", "quantifier": "all settings and pairs of data sets", "why_tests_cant": "tests never refit", "anchors": ["preprocessing/pca.go:28-53"]}
{"id": "C117", "title": "ExplainedVarianceRatio is a ratio of variances", "statement": "ExplainedVarianceRatio[i] is the variance of component i divided by the total variance of the columns.", "quantifier": "all data sets", "why_tests_cant": "tests compare with stored numbers for one data set", "anchors": ["preprocessing/pca.go:28-37"]}
{"id": "C118", "title": "Multi-output elastic net: every update is the best one for its feature", "statement": "With several outputs, one update of ElasticNet.Fit replaces the coefficients of one feature (all outputs together) by values minimising 1/2|Y-XW|^2 + l1*sum_j|W_j| + l2/2*|W|^2 over that row, the maintained residual is always exactly Y-XW, so Fit never returns coefficients with a larger objective than those it started from, and coefficients that no update changes are a global minimiser.", "quantifier": "all X, Y, sizes, non-negative l1, l2, starting coefficients, orders of features, iteration counts, tolerances", "why_tests_cant": "Optimality is over a continuum of competitors; tests compare a few fitted values with tolerance.", "anchors": ["linear_model/cdfast.go:159-333"]}
{"id": "C119", "title": "Multi-output elastic net: the reported gap certifies the fit", "statement": "With several outputs and at least one iteration, the objective of the returned coefficients exceeds that of any other coefficients by at most CDResult.Gap; NIter is the number of iterations made and when it shows an early stop the gap is below CDResult.Eps.", "quantifier": "all data, penalties, orders, tolerances, competitors", "why_tests_cant": "The certificate is a statement about every competitor.", "anchors": ["linear_model/cdfast.go:276-332"]}
{"id": "C120", "title": "Positive constrains multi-output fits", "statement": "With Positive set, ElasticNet.Fit returns non-negative coefficients whatever the number of outputs.", "quantifier": "all data", "why_tests_cant": "Tests use Positive with one output only.", "anchors": ["linear_model/cdfast.go:159-333", "linear_model/coordinatedescent.go:72-78"]}
{"id": "C121", "title": "EnetPath: one certified fit per alpha", "statement": "EnetPath returns one entry per requested alpha; whatever the schedule of the goroutines, the coefficients at position i are within the gap at position i of the optimum for the alpha at position i. Without given alphas it uses NAlphas values in geometric progression, the largest being one at which all coefficients vanish.", "quantifier": "all data, L1Ratio in [0,1], eps, NAlphas, given alphas, schedules", "why_tests_cant": "Schedules and optimality cannot be enumerated.", "anchors": ["linear_model/coordinatedescent.go:113-176"]}
{"id": "C122", "title": "ElasticNet is certified on the original data", "statement": "With FitIntercept, the fitted coefficients and intercepts (of one or several outputs) are within CDResult.Gap of the minimum of the penalised least squares on the original data over all coefficients and intercepts; with Normalize the penalty is on the coefficients of the normalised features; without FitIntercept the same holds among models through the origin and the intercept is not changed; under Positive the coefficients are non-negative.", "quantifier": "all data (varying columns under Normalize), Alpha >= 0, 0 <= L1Ratio <= 1, MaxIter >= 1, cold and warm starts", "why_tests_cant": "Quantifies over all competitors and intercepts.", "anchors": ["linear_model/coordinatedescent.go:54-80", "linear_model/Base.go:559-660"]}
{"id": "C123", "title": "WarmStart starts from the model found before", "statement": "A fit with WarmStart starts from the coefficients of the previous fit (from zero on a new estimator) and never ends with a larger cost than theirs.", "quantifier": "all data, coefficients, parameters", "why_tests_cant": "Tests never refit with WarmStart and Normalize.", "anchors": ["linear_model/coordinatedescent.go:63-65", "linear_model/Base.go:565"]}
{"id": "C124", "title": "Logistic regression minimises a convex loss with its true gradient", "statement": "The loss minimised by LogisticRegression.Fit is convex (strongly in the coefficients when Alpha > 0), the gradient given to the optimiser is its derivative and supports it, so that parameters with zero gradient are a global minimum.", "quantifier": "for every data set, targets, Alpha and parameters", "why_tests_cant": "Continuum; a test sees one optimum.", "anchors": ["linear_model/logistic.go: backprop, forwardPass"]}
{"id": "C125", "title": "Fit depends on the values of X and Y only", "statement": "LogisticRegression.Fit accepts targets in any matrix type and memory layout and uses H \u2212 y for every cell.", "quantifier": "for every data set, matrix type and stride", "why_tests_cant": "Tests pass freshly made dense matrices.", "anchors": ["linear_model/logistic.go: backprop, Fit"]}
{"id": "C126", "title": "A refitted LogisticRegression predicts the new labels", "statement": "After Fit, Predict returns for every row one of the labels of that fit: the class with the first largest probability (0/1 by the threshold one half for 0/1 labels), whatever the estimator was fitted on before.", "quantifier": "for every label column, training procedure and earlier fits", "why_tests_cant": "Tests fit each estimator once.", "anchors": ["linear_model/logistic.go: Fit, PredictProbas, Predict"]}
{"id": "C127", "title": "The fitted parameters are the best ones found", "statement": "After Fit the stored parameters have loss Loss, BestLoss is the least loss evaluated, the loss curve lists the losses of this fit, and the stored parameters are the best evaluated.", "quantifier": "for every sequence of points evaluated by the optimiser", "why_tests_cant": "The optimiser usually ends on its best point.", "anchors": ["linear_model/logistic.go: fitLbfgs"]}
{"id": "C128", "title": "MakeRegression returns the linear problem it describes", "statement": "The targets returned by MakeRegression are X restricted to the informative features times the returned coefficients plus the bias; X and the coefficients are successive draws, each used once.", "quantifier": "for all sizes, biases and draws", "why_tests_cant": "Tests fit a model to one generated set with tolerance.", "anchors": ["datasets/samples_generator.go: MakeRegression"]}
{"id": "C129", "title": "MakeBlobs draws each sample around the centre of its label, reproducibly", "statement": "Every sample is noise plus the centre named by its label, centres lie in the box, labels are the drawn integers, the result is a function of RandomState, the call returns for every box, and the configuration given is not changed.", "quantifier": "for every configuration, schedule and sequence of draws", "why_tests_cant": "The race on the source shows only under some schedules.", "anchors": ["datasets/samples_generator.go: MakeBlobs"]}
{"id": "C130", "title": "Loaders return the cells of the file", "statement": "The csv loaders return all columns but the last as X and the last as Y, row by row; a cell that is not a number gives no data; GetXY returns the features and targets in order.", "quantifier": "for every rectangular file", "why_tests_cant": "Tests check shapes of the bundled files.", "anchors": ["datasets/base.go: loadCsv, GetXY"]}
{"id": "C131", "title": "Distances to and between rectangles", "statement": "MinDistance and MaxDistance of a KDTree rectangle to a point or to another rectangle are the least and greatest distances between their points.", "quantifier": "for all rectangles, points and orders of norm", "why_tests_cant": "Continuum of points.", "anchors": ["neighbors/kdtree.go: Rectangle"]}
{"id": "C132", "title": "Splitting a rectangle gives two rectangles that cover it", "statement": "The two parts returned by Split contain together the points of the rectangle and their volumes add up to its volume.", "quantifier": "for every rectangle, axis and cut", "why_tests_cant": "No test calls Split.", "anchors": ["neighbors/kdtree.go: Split, Volume"]}
{"id": "C133", "title": "Row exchange and element access of General64", "statement": "Exchanging two rows (as the shuffling of the MLP does) exchanges exactly these rows of the matrix and nothing else in memory; At and Set access the addressed cell and refuse columns outside the matrix; row views can be taken of any view.", "quantifier": "for every matrix, view and memory", "why_tests_cant": "Views of larger matrices are not tested.", "anchors": ["neural_network/general.go: At, Set, Swap, RowSlice"]}
{"id": "C134", "title": "Copy and SumRows of General64", "statement": "Copy gives the receiver the cells of its argument; SumRows gives the sum of the rows.", "quantifier": "for every argument, of each of the three kinds accepted", "why_tests_cant": "Copies of views are not tested.", "anchors": ["neural_network/general.go: Copy, SumRows"]}
{"id": "C135", "title": "Every MLP parameter has its own place in the packed vector", "statement": "The intercepts and coefficients of all layers fill the packed parameter vector without gap or overlap, with the shapes given by the layer sizes.", "quantifier": "for every list of layer sizes", "why_tests_cant": "Tests use a few layer sizes.", "anchors": ["neural_network/basemlp64.go: initialize"]}
{"id": "C136", "title": "Hyperparameters out of range are refused", "statement": "Training starts exactly when all hyperparameters are in their documented ranges and the names are known, and then it does not panic on them.", "quantifier": "for all values, NaN included", "why_tests_cant": "Continuum of values.", "anchors": ["neural_network/basemlp64.go: validateHyperparameters"]}
{"id": "C137", "title": "An MLPRegressor predicts the outputs of its network", "statement": "After Fit, MLPRegressor.Predict returns the values of the last layer, whatever the targets were.", "quantifier": "for all networks, targets and points", "why_tests_cant": "Tests use one regression set.", "anchors": ["neural_network/basemlp64.go: fit, Predict"]}
{"id": "C138", "title": "MLPClassifier predicts labels it was trained on", "statement": "After Fit on a column of labels Predict returns the label of the largest output (threshold one half for 0/1 labels), independent of earlier fits; the label binarizer writes PosLabel for the class and NegLabel elsewhere and decodes its encoding.", "quantifier": "for all labels, networks and points", "why_tests_cant": "Tests use fresh classifiers with 0/1 or few labels.", "anchors": ["neural_network/basemlp64.go: fit, Predict", "neural_network/basemlp64.go: LabelBinarizer64"]}
{"id": "C139", "title": "Shapes in MLP predictions", "statement": "Predict refuses rows whose number of features differs from training, and writes the label of sample i into row i of Y and nothing else.", "quantifier": "for all networks, rows and views", "why_tests_cant": "Tests pass matching shapes and fresh matrices.", "anchors": ["neural_network/basemlp64.go: Predict"]}
{"id": "C140", "title": "An MLP read from a file predicts what the file describes", "statement": "After Unmarshal the estimator predicts the outputs of the network described; SetParams sets every parameter given.", "quantifier": "for every well-formed file", "why_tests_cant": "The test reads one file without predicting.", "anchors": ["neural_network/basemlp64.go: Unmarshal", "neural_network/basemlp64.go: SetParams"]}
{"id": "C141", "title": "Bookkeeping of MLP training", "statement": "Fit trains on all rows for every type of argument, also the first time with WarmStart, and the loss reported is the mean loss of the samples trained on.", "quantifier": "for all data and batch partitions", "why_tests_cant": "Tests print losses.", "anchors": ["neural_network/basemlp64.go: Fit, fit, fitStochastic"]}
{"id": "C142", "title": "Tensors address their elements in row-major order", "statement": "Going through all indices of a tensor in nested-loop order visits its data once each in order; an index outside the shape gives an error; iterators visit every position once and Start starts again; the backing given must fit the shape.", "quantifier": "for every shape, backing and index list", "why_tests_cant": "Tests use three-dimensional shapes of one size.", "anchors": ["gaussian_process/tensor/tensor.go"]}
{"id": "C143", "title": "Gradient tensors of composed kernels hold the slices in order", "statement": "The gradient of a sum consists of the slices of its parts, that of a product of the slices each times the other kernel, those of single kernels hold the derivative at row and column.", "quantifier": "for all numbers of rows and slices", "why_tests_cant": "Index arithmetic is tested for one size.", "anchors": ["gaussian_process/kernels/kernels.go: Eval"]}
{"id": "C144", "title": "Comparing tensors; bounds and nil clones of kernels", "statement": "Diff3D reports no error exactly when the tensors have the same cells up to the tolerance, otherwise the greatest difference; Bounds and Theta describe the same hyperparameters; CloneWithTheta(nil) copies a kernel.", "quantifier": "for all tensors, tolerances and kernels", "why_tests_cant": "Used only as a test helper.", "anchors": ["gaussian_process/kernels/matutil.go: Diff3D", "kernels.go: Bounds, CloneWithTheta"]}
{"id": "C145", "title": "Predictions arrive in the destination given by the caller", "statement": "Whether the destination of Predict is nil, an empty or filled dense matrix, a view of one or any other mutable matrix, the returned matrix and the destination hold the predictions afterwards and no other existing cell is changed.", "quantifier": "for every destination, its layout in memory, and all predictions", "why_tests_cant": "Tests pass nil or a fresh dense matrix.", "anchors": ["base/matrix.go: ToDense, FromDense", "Predict methods of cluster, neighbors, svm, linear_model, naive_bayes"]}
{"id": "C146", "title": "FromDense copies the matrix", "statement": "After FromDense(dst, D) every cell of dst equals the cell of D and no other memory has changed.", "quantifier": "for all layouts of the two matrices in memory", "why_tests_cant": "Aliasing and views are not tested.", "anchors": ["base/matrix.go: FromDense"]}
{"id": "C147", "title": "Text of matrices and check of their sizes", "statement": "MatStr writes one line per row with the cells of all matrices separated by tabs; MatDimsCheck panics exactly on sizes that do not fit the operator.", "quantifier": "for all matrices, formats and operators", "why_tests_cant": "Tests print one matrix.", "anchors": ["base/matrix.go: MatStr, MatDimsCheck"]}
{"id": "C148", "title": "Column means, deviations, dummy feature and the inverse of the normalizer", "statement": "DenseMean and MeanStdDev give the mean and standard deviation of each column, AddDummyFeature prepends ones, Normalizer.InverseTransform undoes Transform.", "quantifier": "for all matrices", "why_tests_cant": "DenseMean is tested with nil only; MeanStdDev and the inverse are not tested for values.", "anchors": ["preprocessing/data.go: DenseMean, MeanStdDev, AddDummyFeature, Normalizer.InverseTransform"]}
{"id": "C149", "title": "The locked source serves concurrent users like a sequential source", "statement": "Whatever the schedule, concurrent Uint64, Seed and WithLock calls take effect one after the other in program order, every draw continuing the stream; nobody waits forever; a clone continues the stream from some point of it.", "quantifier": "for all numbers of goroutines, programs and schedules", "why_tests_cant": "Races need unlucky schedules.", "anchors": ["base/source.go"]}
{"id": "C150", "title": "Activation functions and their derivatives", "statement": "Fprime of the value F(x) is the derivative of F at x wherever F has one, and a subgradient where it has none (relu at 0); logistic, tanh and relu values lie in their ranges; all are monotone.", "quantifier": "for all real x", "why_tests_cant": "Tests compare a few values.", "anchors": ["base/activation.go"]}
{"id": "C151", "title": "Fitting a clone of a scaler leaves the original as it was", "statement": "For every program that creates scalers, clones them and calls Fit and PartialFit on any of them, each scaler transforms as determined by the calls made on it (and, for a clone, those made on its original before it was cloned); calls on another object do not change it.", "quantifier": "all programs of constructions, clones, Fit and PartialFit calls over any number of variables; all data", "why_tests_cant": "Tests fit one object, or fit a clone and look only at the clone; the damage is in the object that no call has touched, and depends on the history of both.", "anchors": ["preprocessing/data.go:42-100", "preprocessing/data.go:144-183", "preprocessing/data.go:330-399", "preprocessing/data.go:922-958"]}
{"id": "C152", "title": "Score methods of the perceptrons and of the Gaussian process report the quality of the predictions", "statement": "MLPClassifier.Score(X, Y) is the fraction of the rows of Y that Predict reproduces in all columns, whatever the memory layout of Y; MLPRegressor.Score and the validation score of early stopping are the mean over the columns of 1 - sum (h-y)^2 / sum (y-mean)^2. Scoring does not change an estimator, does not depend on whether the targets are a view, and does not panic for data that Fit and Predict accept.", "quantifier": "all networks, activations that keep the width, all data, all strides of the target buffer", "why_tests_cant": "Tests score on freshly allocated matrices, with a classifier fitted without early stopping and non-constant targets; the failures need a view, a constant column, labels with EarlyStopping, or a Gaussian process scored on other data.", "anchors": ["/repo/neural_network/basemlp64.go:1097-1137", "/repo/neural_network/basemlp64.go:935-944", "/repo/neural_network/multilayer_perceptron.go:65-71", "/repo/neural_network/multilayer_perceptron.go:128-134", "/repo/gaussian_process/gpr.go:133-137"]}
{"id": "C153", "title": "Matrix overrides behave as the matrices they stand for", "statement": "A MatTranspose reads and writes the transposed cell, T is an involution up to reading, a MatRowSlice reads and writes the rows from Start to End and panics outside, MatConst panics outside of Dims, and MatOnesPrepended shows a first column of ones. Set changes exactly the cell that is named.", "quantifier": "all nestings of transposes over all dense matrices, all indices (also negative), all slices", "why_tests_cant": "The test sets one cell through one transpose of a 2x2 matrix; row slices and ones are not tested.", "anchors": ["/repo/base/matrix.go:13-80"]}
{"id": "C154", "title": "Slices of a matrix are views of exactly that part", "statement": "MatDenseSlice/MatGeneralSlice, MatDenseRowSlice/MatGeneralRowSlice and MatDenseColSlice/MatGeneralColSlice of rows and columns inside of a matrix return a matrix whose cells are these cells of the original (same memory), for originals that are views themselves; arguments outside of the matrix or in the wrong order panic.", "quantifier": "all well-formed matrices with any stride, buffer length and capacity; all bounds", "why_tests_cant": "The tests slice a freshly allocated 3x2 matrix once each; strides other than the number of columns and buffers that end with the last cell do not occur.", "anchors": ["/repo/base/matrix.go:136-195"]}
{"id": "C155", "title": "Grid search sets hyperparameters by name", "statement": "A parameter of the grid sets exactly the exported field of the estimator (or of a struct embedded in it) whose name is the same up to case, nearest first; whole numbers and float32 values are accepted for float fields; an unknown, ambiguous or unexported name or a value of another type panics. Reading the parameter under any spelling returns the stored value, other parameters keep theirs, and the estimator of a grid point does not depend on the order in which Go visits the map.", "quantifier": "all struct layouts (any embedding depth), all names, all values, all visiting orders of the map", "why_tests_cant": "Tests use one or two parameters with exact spelling; map order is random and ambiguous or nested names do not occur.", "anchors": ["/repo/model_selection/search.go:183-231", "/repo/model_selection/search.go:140-142"]}
{"id": "C156", "title": "A neighbour estimator forgets earlier fits and owns its training data", "statement": "For every program that sets fields, fits and overwrites its own matrices, what KNeighborsRegressor and KNeighborsClassifier predict after Fit is determined by the settings as the caller last set them and the contents of the two matrices at the last Fit; earlier fits and later writes to the matrices do not matter. The estimators can be cloned and Predict can allocate its result.", "quantifier": "all programs, all data, both searches as arbitrary functions of power, rows, leaf size, count and query", "why_tests_cant": "Tests fit each estimator once and do not touch the matrices afterwards.", "anchors": ["/repo/neighbors/unsupervised.go:38-68", "/repo/neighbors/classification.go:36-50", "/repo/neighbors/regression.go:44-56", "/repo/neighbors/nearest_centroid.go:73-82"]}
{"id": "C157", "title": "A clone of a Gaussian naive Bayes classifier is independent of its original", "statement": "For every program that creates GaussianNB estimators, clones them, clears Theta, and calls Fit and PartialFit, the program panics exactly when estimators that share nothing would, and every prediction is the one determined by the training of the estimator it is asked of (for a clone: also that of its original before it was cloned).", "quantifier": "all programs, all data, all priors and smoothing parameters", "why_tests_cant": "Tests train one estimator; clones of trained estimators, and the originals after the clone is trained, are not looked at.", "anchors": ["/repo/naive_bayes/naivebayes.go:127-137", "/repo/naive_bayes/naivebayes.go:140-261", "/repo/naive_bayes/naivebayes.go:31-49"]}
{"id": "C158", "title": "A support vector estimator predicts from its own settings and its last fit", "statement": "For every program that constructs SVC or SVR estimators, clones them, assigns settings and fits, each estimator predicts for every output with the model trained on that column of targets alone, with the kernel named by its settings and gamma as assigned or one over the number of features; other estimators, clones included, and earlier fits do not matter; the program panics exactly when such separate estimators would. Support vectors are the training rows of the support indices.", "quantifier": "all programs, data, kernels, settings, random draws, and any solver for one output", "why_tests_cant": "Tests fit each estimator once, with one kernel and one number of features.", "anchors": ["/repo/svm/svm.go:238-328", "/repo/svm/svr.go:36-45", "/repo/svm/svr.go:194-233"]}
{"id": "C159", "title": "Clones of encoders, binarizers, imputers, discretizers, feature generators and PCA are independent of their originals", "statement": "For any sequence of creating, cloning and fitting transformers, each object has the parameters it would have if clones were deep copies. This holds for OneHotEncoder, LabelBinarizer, Imputer, KBinsDiscretizer, PolynomialFeatures, QuantileTransformer and KernelCenterer without restriction; for LabelEncoder without PartialFit or when only unfitted encoders are cloned; for PCA when only unfitted ones are cloned. PartialFit on a clone of a fitted LabelEncoder changes the codes of the original, and Fit of a clone of a fitted PCA replaces the singular vectors the original transforms with.", "quantifier": "all programs of creations, clones, fits and partial fits on any number of objects; all data", "why_tests_cant": "A test fits one transformer, or clones an unfitted one as Pipeline does; aliasing needs an interleaving of a fitted original and its clone.", "anchors": ["/repo/preprocessing/label.go:282-321", "/repo/preprocessing/pca.go:22-66", "/repo/preprocessing/data.go:693-725", "/repo/preprocessing/imputation.go:23-60", "/repo/preprocessing/discretization.go:29-58"]}
{"id": "C160", "title": "LBFGS training: the minimiser is given the loss and its gradient, and the trained network has the parameters found", "statement": "During Fit with the lbfgs solver every evaluation at w is answered with the training loss at w and every gradient request with the gradient of that loss; after Fit the network has the parameters of the best evaluation, LossCurve holds the losses of the evaluations in order and BestLoss their minimum. Proved: with no weight decay, a gradient requested at the point of the last evaluation is the gradient of the loss answered; LossCurve grows by exactly the losses of the evaluations; BestLoss is their minimum; the parameters are those of the last evaluation. False: the parameters need not be those of the best evaluation; a gradient requested elsewhere is stale; with weight decay the gradient is too large by the factor 1/(1-WeightDecay); after a second Fit the curve still holds the first one.", "quantifier": "all sequences of evaluations and gradient requests a minimiser may make, all networks, data and states left by earlier fits", "why_tests_cant": "A test trains with one minimiser on easy data where the last evaluation happens to be the best; the order of calls and the point evaluated last are up to the minimiser.", "anchors": ["/repo/neural_network/basemlp64.go:676-728", "/repo/neural_network/basemlp64.go:341-407", "/repo/neural_network/basemlp64.go:409-483"]}
{"id": "C161", "title": "Batch normalisation leaves the loss alone and divides activations by their largest absolute value; gradients are those of the loss", "statement": "With BatchNormalize the hidden activations of a batch are divided, column by column, by their largest absolute value (zero columns stay), the output and loss are those of the plain network, and the gradients written are the gradient of that loss. The first two hold for every depth. The third holds when every hidden column already has largest absolute value 1; otherwise the gradient of an outgoing coefficient is divided by that maximum and is not the derivative of the loss, and a hidden unit that is inactive on the whole batch gets an intercept gradient that is not a number.", "quantifier": "all network depths and widths, batches, parameters, penalties", "why_tests_cant": "Tests check that training with BatchNormalize reaches a score on one data set; wrong gradients still train, and a unit inactive on a whole batch is rare.", "anchors": ["/repo/neural_network/basemlp64.go:278-309", "/repo/neural_network/basemlp64.go:341-407"]}
{"id": "C162", "title": "PowerTransformer chooses its parameters by maximum likelihood", "statement": "For every sample, the function that PowerTransformer minimises to choose the lambda of a column is, up to a constant that does not depend on lambda, minus the largest log-likelihood of the sample over all normal distributions of its transformed values; so a lambda with a smaller objective fits at least as well. Proved for Box-Cox with every lambda on positive samples and for Yeo-Johnson with every lambda other than 0; at lambda 0 (the logarithm) the Yeo-Johnson objective is not a number.", "quantifier": "all samples that are not constant after the transform, all lambdas", "why_tests_cant": "A test compares lambdas with a reference on one data set; it cannot show that the objective is the likelihood for every sample and lambda.", "anchors": ["/repo/preprocessing/data.go:1374-1401", "/repo/preprocessing/data.go:1477-1498", "/repo/preprocessing/data.go:1404-1436", "/repo/preprocessing/data.go:277-291"]}
{"id": "C163", "title": "PowerTransformer: FitTransform equals Fit then Transform, cells are transformed independently, inputs stay as they are, clones are independent", "statement": "FitTransform returns what Transform returns after Fit, leaves the transformer as Fit does and leaves its argument alone, for every method, setting and matrix. On matrices of numbers the result of Transform does not depend on the number of workers. Clones are independent. False: under Yeo-Johnson a NaN becomes 0 or the value of the column before, depending on the number of workers; Transform overwrites a dense argument, so transforming it twice gives different results unless every value is fixed; Fit without Standardize keeps an older scaler, which is used when Standardize is switched on; without an older one Transform panics.", "quantifier": "all matrices with or without NaN, methods, settings, numbers of workers, choices of lambda, scalers", "why_tests_cant": "Tests use complete data on one machine and transform each matrix once.", "anchors": ["/repo/preprocessing/data.go:1249-1324", "/repo/preprocessing/data.go:1404-1436", "/repo/preprocessing/data.go:1237-1240"]}
{"id": "C164", "title": "A clone of a perceptron is independent of its original", "statement": "In every program that creates, clones, configures and fits MLPRegressors and MLPClassifiers one after the other, each shows what it would show if clones were full copies: settings, parameters (hence predictions), loss curve and state of its random source. Proved in full when only unfitted perceptrons are cloned (classifiers without random source), and for everything except the elements of the loss curves when WarmStart is not used. False otherwise: fitting a clone with WarmStart changes the parameters of the original; fitting a clone and then the original puts losses of the original into the clone's loss curve when the array has spare capacity; fitting a clone of a classifier that has a RandomState advances the original's.", "quantifier": "all programs, training algorithms, data, random sources and capacity rules of append", "why_tests_cant": "Tests fit one estimator, or compare predictions right after cloning; they do not fit original and clone in turn with spare capacity in a slice.", "anchors": ["/repo/neural_network/multilayer_perceptron.go:34-50", "/repo/neural_network/multilayer_perceptron.go:93-106", "/repo/neural_network/basemlp64.go:409-483", "/repo/neural_network/basemlp64.go:485-571", "/repo/neural_network/basemlp64.go:730-857"]}
{"id": "C165", "title": "Clones of DBSCAN and KMeans are independent of their originals", "statement": "In every program that creates, clones, configures and fits DBSCANs, each has its own settings and the labels of its own last fit, and if only unfitted ones are cloned its own core sample indices. In every such program with KMeans each shows the centroids of its own last fit. False: after cloning a fitted DBSCAN, fitting the clone and then the original replaces core sample indices of the clone by those of the original (append into a shared array).", "quantifier": "all programs, data, metrics, settings and capacity rules of append", "why_tests_cant": "The effect needs three fits, a clone and an array with spare capacity; tests fit once.", "anchors": ["/repo/cluster/dbscan.go:65-68", "/repo/cluster/dbscan.go:82-124", "/repo/cluster/kmeans.go:25-28", "/repo/cluster/kmeans.go:49-102"]}
{"id": "C166", "title": "A grid search compares its candidates on the same splits, and can be repeated", "statement": "GridSearchCV.Fit evaluates every combination of parameters on the same train/test splits, namely those of the present state of the splitter's random source, and leaves that state unchanged; fitting again on the same data, or fitting a clone or an equally configured search in any other program, gives the same scores and the same best estimator; nothing done with other searches (clones sharing the splitter included) changes this. A search without candidates has no answer. Proved for splitters with a source that can be cloned and for the default splitter. False with a source that cannot be cloned or none (candidates with equal parameters get different splits; each Fit moves the source), and after a Fit without candidates Predict and Score still use the estimator of an earlier Fit although BestIndex is -1.", "quantifier": "all programs that create, clone, reconfigure and fit grid searches; all estimators, scorers, data, parameter combinations and random sources", "why_tests_cant": "Tests fit one search once with one seeded source.", "anchors": ["/repo/model_selection/search.go:47-76", "/repo/model_selection/search.go:87-181", "/repo/model_selection/split.go:15-45", "/repo/model_selection/split.go:48-106"]}
{"id": "C167", "title": "A clone of a pipeline stands alone; fitting a pipeline fits its steps in a chain", "statement": "PredicterClone of a pipeline makes a pipeline with the same names and clones of the steps (it panics just if a step is neither a transformer nor a predicter); whatever is done afterwards with the original, its steps, the slices it was built from or other pipelines leaves the clone as it is, and fitting the clone changes nothing else. Fit fits every step with what the fitted steps before it make of the data and sets NOutputs; Predict passes the data through all steps and takes the targets back by the inverse transforms of all but the last; Score uses the transformed X and the given Y. IsClassifier and GetNOutputs are those of the last step. False for pipelines that hold one step twice (both places end with the last fit) and for pipelines made of one slice (they share all steps). Transform gives back X unchanged and panics before a fit; GetNOutputs panics if the last step is a transformer.", "quantifier": "all programs that make steps, slices, pipelines and clones, fit pipelines and steps and assign slice elements; all step types and data", "why_tests_cant": "Tests fit one pipeline of distinct steps once; they never clone after a fit, share a step or a slice.", "anchors": ["/repo/pipeline/pipeline.go:23-60", "/repo/pipeline/pipeline.go:62-97", "/repo/pipeline/pipeline.go:100-158", "/repo/base/interfaces.go:8-28", "/repo/preprocessing/data.go:24-27"]}
{"id": "C168", "title": "Which transformers a pipeline can predict through", "statement": "With MinMaxScaler, StandardScaler, RobustScaler, PolynomialFeatures, PCA and Imputer as steps before a predicter, Pipeline.Predict gives the predicter's prediction for the transformed X; with a LabelEncoder the predicted class numbers come back as labels. False for every other transformer of the library: with a OneHotEncoder, Shuffler, MaxAbsScaler, Normalizer, KBinsDiscretizer, PowerTransformer, Binarizer, KernelCenterer, QuantileTransformer, MultiLabelBinarizer or a FunctionTransformer without InverseFunc anywhere before the last step every Predict panics.", "quantifier": "all pipelines, all data, all predicters, all behaviours of the transforms", "why_tests_cant": "Tests predict only through StandardScaler, PCA and PolynomialFeatures.", "anchors": ["/repo/pipeline/pipeline.go:123-134", "/repo/preprocessing/data.go:24-27", "/repo/preprocessing/data.go:119-122", "/repo/preprocessing/data.go:212-215", "/repo/preprocessing/data.go:424-427", "/repo/preprocessing/data.go:606-609", "/repo/preprocessing/data.go:771-772", "/repo/preprocessing/data.go:845-846", "/repo/preprocessing/data.go:981-982", "/repo/preprocessing/data.go:1063-1064", "/repo/preprocessing/data.go:1341", "/repo/preprocessing/pca.go:75-78", "/repo/preprocessing/imputation.go:93-96", "/repo/preprocessing/discretization.go:103", "/repo/preprocessing/label.go:89-105", "/repo/preprocessing/label.go:236", "/repo/preprocessing/label.go:348-363", "/repo/preprocessing/functiontransformer.go:45-48"]}
{"id": "C169", "title": "ConfusionMatrix uses the first label column only", "statement": "For label matrices with several columns ConfusionMatrix (and the precision, recall and F-score functions built on it) gives the matrix of the first column, as documented. True for one column. With two columns or more and a non zero total weight it never does: all columns are added up into a matrix sized by the classes of the first column, so that its entries sum to the number of columns times the total weight; if a later column has more classes it can panic.", "quantifier": "all label matrices with any number of columns, all weights", "why_tests_cant": "Tests use one label column.", "anchors": ["/repo/metrics/classification.go:147-153", "/repo/metrics/classification.go:154-178", "/repo/preprocessing/label.go:288-336"]}
{"id": "C170", "title": "A clone of a Gaussian process regressor is independent of its original and equal to it", "statement": "PredicterClone of a Gaussian process regressor, fitted or not, gives a regressor with the same kernels, alpha and training data, and afterwards no call on one changes the other. False where: the kernel contains an exponentiation (the clone loses the exponent), a sum or product has a second operand without free hyperparameters (panic), or an element of Alpha is written (the slice is shared).", "quantifier": "all sequences of constructions, fits, clones and field assignments, all kernel expressions", "why_tests_cant": "Tests never clone a Gaussian process regressor.", "anchors": ["/repo/gaussian_process/gpr.go:17-41", "/repo/gaussian_process/gpr.go:47-65", "/repo/gaussian_process/gpr.go:76-84", "/repo/gaussian_process/kernels/kernels.go:125-136"]}
{"id": "C171", "title": "Score of linear models, neighbour estimators, support vector machines, naive Bayes and logistic regression", "statement": "Score(X, Y) of a linear model, SVR or KNeighborsRegressor is the mean over the target columns of 1 - (sum of squared residuals)/(sum of squares about the mean): at most 1, 1 exactly if every target is predicted, 0 for the column means, and independent of the unit in which the targets are measured. Score of SVC, GaussianNB, LogisticRegression, KNeighborsClassifier and NearestCentroid is the fraction of the rows of Y predicted in all columns. X and Y of different shapes are refused.", "quantifier": "all data, all predictions, all coefficients, any number of outputs", "why_tests_cant": "Tests score well-scaled data of matching shapes; the unit dependence needs sums of squares under 1e-20 and the silent scores need fewer samples than targets or fewer target columns than outputs.", "anchors": ["/repo/linear_model/Base.go:584-589", "/repo/linear_model/logistic.go:490-496", "/repo/neighbors/regression.go:112-117", "/repo/neighbors/classification.go:151-156", "/repo/neighbors/nearest_centroid.go:104-109", "/repo/svm/svm.go:331-334", "/repo/svm/svr.go:236-239", "/repo/naive_bayes/naivebayes.go:121-124"]}
{"id": "C172", "title": "Training of a support vector machine ends at the optimality conditions", "statement": "When fitting an SVC on samples labelled -1/+1 ends, every training sample whose margin is below 1-Epsilon has its multiplier at C and every one whose margin exceeds 1+Epsilon has multiplier 0; the fitted SVC then predicts the label of every training sample with a multiplier below C (as long as the multipliers up to Tol that are dropped matter less than the margin). When fitting an SVR ends, samples more than Epsilon off the curve have their multipliers at the bound, and all others are predicted up to Epsilon plus the dropped multipliers. Conversely, from multipliers and offset that meet the conditions training ends at once without changing them; and fitting an SVR on targets all within Epsilon of zero succeeds.", "quantifier": "all data sets, symmetric kernels, random sources, tolerances", "why_tests_cant": "Tests check scores on a few data sets; a training that stops away from the optimum scores well on most.", "anchors": ["/repo/svm/svm.go:75-169", "/repo/svm/svr.go:88-190", "/repo/svm/svm.go:178-198", "/repo/svm/svr.go:204-215"]}
{"id": "C173", "title": "Ridge regression finds the minimum of the ridge cost for each output", "statement": "When Ridge is fitted with its default solver, each output's coefficients are what the minimiser returned for that output, in whatever order the outputs finish; if the minimiser ends where the gradient it was given vanishes, each output of the fitted model minimises the sum of squared residuals plus Alpha times the squared coefficients, over all coefficients and intercepts; and the result reports convergence only if no minimisation failed, with the cost reached.", "quantifier": "all data sets, numbers of outputs, arrival orders, starting points, minimisers", "why_tests_cant": "The tests use Alpha=1 only, or small Alpha with loose tolerances; the schedule of the goroutines and failures of the minimiser cannot be provoked in a test.", "anchors": ["/repo/linear_model/Base.go:107-123", "/repo/linear_model/Base.go:329-338", "/repo/linear_model/Base.go:449-556", "/repo/linear_model/loss.go:33-66", "/repo/linear_model/loss.go:250-294", "/repo/linear_model/ridge.go:9-17"]}
{"id": "C174", "title": "Training of a support vector regressor ends", "statement": "Fitting an SVR on samples with pairwise different kernel rows ends after finitely many rounds, whatever random numbers are drawn.", "quantifier": "all data sets, symmetric kernels, values of C, Epsilon, Tol, MaxIter and random draws", "why_tests_cant": "A test that hangs says nothing about which settings make it hang, and a terminating run says nothing about other draws.", "anchors": ["/repo/svm/svr.go:48-171"]}
{"id": "C175", "title": "A fitted SGDRegressor minimises its penalised cost for each output", "statement": "After SGDRegressor.Fit every output holds the coefficients its own minimisation returned, and if the minimiser ends where the gradient it was given vanishes, each output minimises half the mean squared error plus the Alpha/L1Ratio penalty over all coefficients and intercepts; without intercept the same holds among models through the origin and the intercept is left as it was.", "quantifier": "all data sets, numbers of outputs, Alpha >= 0, L1Ratio in [0,1], minimisers", "why_tests_cant": "The tests compare a few fits on exact linear data, where the penalty hardly shows; the claim is about all data and every competing coefficient vector.", "anchors": ["/repo/linear_model/Base.go:136-276", "/repo/linear_model/Base.go:107-123"]}
{"id": "C176", "title": "The number of outputs an estimator reports is that of its targets, so cross-validation scores predictions of the right shape", "statement": "After a successful Fit, GetNOutputs of a supervised estimator is the number of target columns of that fit, whatever was fitted before; CrossValidate therefore hands the scorer predictions with as many columns as the targets, for every estimator, and uses three folds when no splitter is given; a pipeline reports the number of columns of its predictions.", "quantifier": "all estimators, histories of fits, target shapes, numbers of test rows", "why_tests_cant": "The tests fit each estimator once and cross-validate only some of them; refits, struct literals and nil splitters are not exercised.", "anchors": ["/repo/linear_model/Base.go:101-104", "/repo/linear_model/logistic.go:338-387", "/repo/linear_model/coordinatedescent.go:48-51", "/repo/linear_model/bayes.go:207-210", "/repo/svm/svm.go:254-261", "/repo/svm/svr.go:195-202", "/repo/neighbors/classification.go:16-55", "/repo/neighbors/regression.go:44-59", "/repo/neighbors/nearest_centroid.go:16-40", "/repo/gaussian_process/gpr.go:68-84", "/repo/naive_bayes/naivebayes.go:25-27", "/repo/naive_bayes/naivebayes.go:134-146", "/repo/cluster/kmeans.go:105-105", "/repo/cluster/dbscan.go:127-127", "/repo/neural_network/basemlp64.go:577-608", "/repo/model_selection/search.go:87-176", "/repo/model_selection/validation.go:37-92", "/repo/pipeline/pipeline.go:85-120"]}
{"id": "C177", "title": "Shuffler can produce every arrangement of the rows", "statement": "For every arrangement of the rows there is a permutation drawn by Fit for which Transform returns that arrangement (all arrangements possible, as with a fair shuffle).", "quantifier": "all data sets, all drawn permutations", "why_tests_cant": "Tests check one seed; that some arrangements never come out needs an argument about all n! draws.", "anchors": ["/repo/preprocessing/data.go:786-836", "/repo/datasets/samples_generator.go:193-195"]}
{"id": "C178", "title": "Fitting all outputs together gives each output its own minimum, and the reported error is that of the result", "statement": "LinFitGOM without PerOutputFit minimises the sum of the costs of the outputs, so that every output gets the minimum of its own cost, as with separate fits; Converged tells whether the minimiser reported an error; RMSE is the root of the mean squared residual of the coefficients returned.", "quantifier": "all data, numbers of outputs, Alpha, L1Ratio, minimisers, starting points", "why_tests_cant": "The branch is exported but never called by the library or its tests.", "anchors": ["/repo/linear_model/Base.go:449-475", "/repo/linear_model/Base.go:531-557", "/repo/linear_model/loss.go:34-72"]}
{"id": "C179", "title": "The log losses are the mean cross-entropy, finite for probabilities 0 and 1, and fall when the targets get more probability", "statement": "The log_loss and binary_log_loss of the networks and of LogisticRegression are the mean over the samples of minus the logarithm of the probability given to the targets, with probabilities moved into [float after 0, float before 1]; they are never negative and are bounded whatever the probabilities; giving every target at least as much probability never raises them.", "quantifier": "all 0/1 target matrices, all probability matrices, all clamping bounds 0 < hmin \u2264 hmax < 1", "why_tests_cant": "Tests evaluate the losses on a few fitted networks, never with probabilities at the ends of the range.", "anchors": ["/repo/neural_network/basemlp64.go:162-195", "/repo/linear_model/logistic.go:97-131"]}
{"id": "C180", "title": "Predict of the perceptrons fills the destination and nothing else", "statement": "After Predict of a perceptron (MLPRegressor, MLPClassifier, BaseMultilayerPerceptron64) cell (i, j) of the destination the caller passed is the prediction for row i and output j, and no memory outside the destination's cells has changed; this does not depend on the dynamic types or on the strides of the matrices passed.", "quantifier": "for all numbers of rows and outputs, all predictions, all heaps and all destinations (nil, empty, dense with any stride, any other mutable matrix), data with and without access to a buffer, with and without a label binarizer", "why_tests_cant": "Tests predict into new matrices, whose rows have no gaps, and with *mat.Dense for both arguments; the failures need a view or a mix of types.", "anchors": ["/repo/neural_network/basemlp64.go:611-624, 917-933, 1232-1255", "/repo/neural_network/multilayer_perceptron.go:53-62, 109-125", "/repo/neural_network/general.go:279-302"]}
{"id": "C181", "title": "MultiLabelBinarizer: encoding and decoding whole tables, whatever their type", "statement": "For every table of labels seen in the fit (numbers in any matrix, or strings) Transform/Transform2 gives one encoded row per row and InverseTransform of the result gives the table back, with its type; labels that were not seen are not decoded as others.", "quantifier": "for all tables of numbers and of strings, all widths, all fitted tables, all dynamic types of the argument", "why_tests_cant": "Tests use one *mat.Dense and one [][]string; other matrix types, unseen labels and mixed types need other arguments.", "anchors": ["/repo/preprocessing/label.go:125-184, 187-275"]}
{"id": "C182", "title": "LinFit with a solver: what the mini-batches of an epoch optimise and what is reported", "statement": "With a named solver, one epoch of LinFit uses every sample once and its mini-batch gradients make up the gradient of the regularised loss of the data set, for every loss and activation; the RMSE, Converged, J and Epoch in the result describe the Theta in the result, and the fit stops as soon as the error is below Tol.", "quantifier": "for all data sets, losses, activations, penalties, batch sizes, shuffles, solvers, epochs and tolerances", "why_tests_cant": "Tests run one loss with one batch size to a loose tolerance; a penalty counted once per batch, gradients scaled by batch/n, and results of the wrong epoch stay within the tolerance.", "anchors": ["/repo/linear_model/Base.go:329-449", "/repo/linear_model/loss.go:33-208", "/repo/metrics/regression.go:153-176"]}
{"id": "C183", "title": "LinFit leaves the caller's options alone", "statement": "Which algorithm LinFit runs depends on the options the caller has set, and calling it again with the same options (or with one field changed) behaves as with fresh options.", "quantifier": "for all options, data sizes and solver names", "why_tests_cant": "Needs two calls with one options value and different sizes or solvers.", "anchors": ["/repo/linear_model/Base.go:292-308, 332-338, 378, 389-391, 464-466", "/repo/base/optimizers.go:24-41"]}
{"id": "C184", "title": "Optimisers by name, as minimisation methods, and for new parameters", "statement": "NewSolver and NewOptimizer give the same optimiser with the documented settings for each of the five names and refuse every other; a minimisation method named after an optimiser runs that optimiser with its settings; after SetTheta an optimiser works on the new parameters as a new one would.", "quantifier": "for all names, settings, minimisation problems, states after any updates, parameters and gradients", "why_tests_cant": "Tests use one name at a time with its defaults and never reuse an optimiser for other parameters; methods that silently run plain gradient descent still converge.", "anchors": ["/repo/base/optimizers.go:26-58, 85-163, 345-347"]}
{"id": "C185", "title": "An interpolating function is determined by the points it was made from", "statement": "The function returned by Interp1d, CubicSpline or Interp2d keeps returning the same values when the caller later writes into the slices that were passed.", "quantifier": "for all points in any order, all later contents of the slices and all arguments", "why_tests_cant": "Tests do not reuse the slices after the function is made.", "anchors": ["/repo/interpolate/interpolate.go:30-62, 75-111", "/repo/interpolate/cubic.go:11-77"]}
{"id": "C186", "title": "Cross-validation with KFold scores models on rows they have not seen", "statement": "CrossValidate with a KFold splitter returns, for each split, the score of an estimator fitted on some rows and scored on all the others, never on a row it was fitted on; it works exactly for 2 to N splits; the estimators returned keep seeing their own training rows.", "quantifier": "for all data, estimators, scorers, numbers of splits and jobs, shuffles and schedules", "why_tests_cant": "Leaking a training row into the test part changes scores only slightly; panics at the ends of the range and shared buffers need particular numbers of splits and jobs.", "anchors": ["/repo/model_selection/validation.go:37-113", "/repo/model_selection/split.go:29-111"]}
{"id": "C187", "title": "Networks and logistic regression start from Glorot-bounded, distinct, signed parameters", "statement": "Before training, every parameter of a network or of LogisticRegression is set from a random draw of its own, scaled by the Glorot bound sqrt(factor/(fanIn+fanOut)) of its layer, lies within plus or minus that bound and can have either sign; parameters and their gradients occupy aligned, disjoint memory.", "quantifier": "for all layer sizes, activations and draws", "why_tests_cant": "Training usually hides a poor starting point; an uninitialised or shared cell at a layer boundary shows up only for particular sizes.", "anchors": ["/repo/neural_network/basemlp64.go:433-479", "/repo/linear_model/logistic.go:268-330"]}
{"id": "C188", "title": "A whole number as sample weight counts as so many copies of the sample, in any order", "statement": "Scoring or fitting with sample weights 1, 2, 3, ... gives exactly the result of the same call without weights on data in which every sample is written out as often as its weight, in any order; in particular the order of the samples does not matter. This holds for accuracy, confusion matrix, precision, recall, F-score, ROC and precision-recall curves, ROC AUC, average precision, R2, mean squared and absolute errors, and for fitting GaussianNB.", "quantifier": "for all samples, predictions, multiplicities, arrangements of the copies and orders in which the sorts leave ties", "why_tests_cant": "Relates two different calls for every choice of weights and every arrangement; a test compares a few hand-written pairs.", "anchors": ["/repo/metrics/classification.go:12-178", "/repo/metrics/ranking.go:13-222", "/repo/metrics/regression.go:83-128", "/repo/metrics/regression.go:153-244", "/repo/naive_bayes/naivebayes.go:133-236", "/repo/naive_bayes/naivebayes.go:278-367"]}
{"id": "C189", "title": "What a transformer learns does not depend on the order of the training rows", "statement": "Fitting MinMaxScaler, StandardScaler, MaxAbsScaler, RobustScaler, OneHotEncoder, LabelBinarizer, MultiLabelBinarizer, LabelEncoder, Imputer, KBinsDiscretizer or QuantileTransformer on the same rows in any other order leaves the transformer in the same state; for the encoders only the set of values matters.", "quantifier": "for all columns, arrangements of their rows, previous states and parameters", "why_tests_cant": "The number of arrangements of the rows is factorial; tests fit one arrangement.", "anchors": ["/repo/preprocessing/data.go:54-100", "/repo/preprocessing/data.go:156-182", "/repo/preprocessing/data.go:353-399", "/repo/preprocessing/data.go:474-539", "/repo/preprocessing/data.go:699-723", "/repo/preprocessing/data.go:928-958", "/repo/preprocessing/data.go:1163-1187", "/repo/preprocessing/label.go:26-60", "/repo/preprocessing/label.go:133-166", "/repo/preprocessing/label.go:288-321", "/repo/preprocessing/imputation.go:27-58", "/repo/preprocessing/discretization.go:27-58"]}
{"id": "C190", "title": "Only the ranking of scores and the order of labels matter", "statement": "Replacing all scores through a strictly increasing function leaves the ROC rates, precisions, recalls, the ROC AUC and the average precision unchanged and replaces the thresholds of the precision-recall curve; replacing all labels through a strictly increasing function leaves label codes, supports, the confusion matrix and precision, recall and F-scores unchanged; a one-to-one replacement leaves the accuracy unchanged.", "quantifier": "for all samples, weights, sorts and increasing functions", "why_tests_cant": "A relation between two runs for every monotone function; unit tests fix the scores and labels.", "anchors": ["/repo/metrics/ranking.go:13-222", "/repo/metrics/classification.go:12-178", "/repo/preprocessing/label.go:288-340"]}
{"id": "C191", "title": "Scaling and binning do not depend on the unit of a feature", "statement": "If a feature is measured in another unit (a x + b with a > 0) both for fitting and for transforming, MinMaxScaler, StandardScaler and RobustScaler produce the same output, KBinsDiscretizer with uniform bins puts every sample in the same bin, and MaxAbsScaler does so for b = 0.", "quantifier": "for all columns, units and cells (any cell for non-constant columns, training cells otherwise)", "why_tests_cant": "Quantifies over all affine maps and columns; tests compare literal outputs for one unit.", "anchors": ["/repo/preprocessing/data.go:54-110", "/repo/preprocessing/data.go:156-200", "/repo/preprocessing/data.go:353-420", "/repo/preprocessing/data.go:928-967", "/repo/preprocessing/discretization.go:27-94"]}
{"id": "C192", "title": "Reversed scores, exchanged roles and units in the scores", "statement": "Reversing the order of the scores, or exchanging the two labels, turns the ROC AUC a into 1 - a, and both together leave it unchanged. Exchanging truth and predictions leaves the accuracy, the mean squared and the mean absolute error unchanged, transposes the confusion matrix, exchanges precision and recall and turns the F-score for beta into that for 1/beta. A change c y + d of the unit of the targets multiplies the mean squared error by c^2 and the mean absolute error by |c|. The square of the mean absolute error is at most the mean squared error, which is at most the largest error times the mean absolute error, and the mean absolute error satisfies the triangle inequality.", "quantifier": "for all samples, weights, sorts, decreasing functions, classes, averages and numbers of outputs", "why_tests_cant": "Relations between two calls for all data; tests fix one data set and compare with constants.", "anchors": ["/repo/metrics/ranking.go:13-222", "/repo/metrics/classification.go:12-178", "/repo/metrics/regression.go:130-244"]}
{"id": "C193", "title": "In a chain of scalers only the last one matters, and scaling twice changes nothing", "statement": "Fitting and applying MinMaxScaler, StandardScaler or RobustScaler to the output of any of the four scalers (these and MaxAbsScaler, fitted on the same column) gives for every training cell the same output as on the original column; fitting and applying the same scaler a second time returns its input.", "quantifier": "for all non-empty columns, feature ranges, quantiles, settings of the first scaler and previous states of both", "why_tests_cant": "A relation between compositions of fits on all columns; tests check one scaler on one matrix.", "anchors": ["/repo/preprocessing/data.go:54-110", "/repo/preprocessing/data.go:156-200", "/repo/preprocessing/data.go:353-420", "/repo/preprocessing/data.go:928-967"]}
{"id": "C194", "title": "Neighbour estimators reproduce their training data and ignore the order of rows and features, the origin and the unit", "statement": "With one neighbour, KNeighborsClassifier and KNeighborsRegressor return the target of every training sample; with as many neighbours as samples and uniform weights they return a most frequent class and the mean target for every query. Predictions and class probabilities do not change when the training rows are put in another order and the features of all samples are permuted, shifted and brought to another common unit.", "quantifier": "for all training sets, queries, numbers of neighbours, exponents of the distance, permutations, shifts, positive units, sorts and iteration orders", "why_tests_cant": "Relates fits on all reorderings and rescalings of the same data; the tests fix one data set.", "anchors": ["/repo/neighbors/classification.go:58-148", "/repo/neighbors/regression.go:62-109", "/repo/neighbors/unsupervised.go:77-91", "/repo/neighbors/distance.go:13-56"]}
{"id": "C195", "title": "GaussianNB ignores the order of rows and features, origins and units, and the names of the classes", "statement": "Fitting a new GaussianNB on the rows in another order, with the features of all rows permuted, shifted and brought to another common unit, the classes renamed keeping their order and all weights multiplied by one positive number gives a model that predicts the renamed class on every (equally changed) row, with the same probabilities and log probabilities. With VarSmoothing = 0 every feature may get a unit of its own.", "quantifier": "for all training sets with positive weights and positive stored variances, permutations, shifts, units, renamings and rows to predict", "why_tests_cant": "Relates fits on all reorderings and rescalings of the same data; the tests fit one data set.", "anchors": ["/repo/naive_bayes/naivebayes.go:41-84", "/repo/naive_bayes/naivebayes.go:133-260", "/repo/naive_bayes/naivebayes.go:278-337"]}
{"id": "C196", "title": "What clusterings do not depend on", "statement": "DBSCAN: the labels, cluster numbers included, and the core samples depend only on which samples are within the radius of each other; so permuting the features, shifting them and changing their common unit together with Eps changes nothing. Reordering the rows keeps core samples, noise and which core samples share a cluster. KMeans: the centroids move with the data when the features are permuted, brought to another common unit or shifted, and the predictions stay. Neither clustering depends on the order of the rows.", "quantifier": "for all data sets, symmetric distances, weights, thresholds, sorts, schedules, permutations, units and shifts", "why_tests_cant": "Relates fits on all reorderings and rescalings of the same data; the tests fit one data set.", "anchors": ["/repo/cluster/dbscan.go:82-185", "/repo/cluster/kmeans.go:34-145", "/repo/neighbors/distance.go:13-56"]}
{"id": "C197", "title": "LinearRegression finds the one best fit, whatever the order of rows, the coordinates and the units", "statement": "On samples that lie in no hyperplane, LinearRegression.Fit with intercept finds the coefficients and intercept with the least sum of squared residuals, and these are unique. Outputs that are an affine function of the features are recovered exactly. Reordering the rows, replacing the features by an invertible linear map of them plus constants (other units, rotations, shifts), rescaling and shifting the outputs or switching Normalize changes the predictions only as the outputs were changed. Score on the training data lies between 0 and 1.", "quantifier": "for all data sets spanning the feature space, both settings of Normalize, all permutations, invertible linear maps, shifts, output scales and solvers of full-rank least squares problems", "why_tests_cant": "Infinitely many data sets and coordinate changes; the tests fit a few data sets once.", "anchors": ["/repo/linear_model/Base.go:70-98", "/repo/linear_model/Base.go:559-660", "/repo/metrics/regression.go:83-128"]}
{"id": "C198", "title": "Label transformers on rows and labels that were not fitted", "statement": "LabelEncoder and LabelBinarizer transform exactly the rows with at most as many cells as Fit had columns, and panic on wider ones; the output of the binarizer has one cell per class of each fitted column. MultiLabelBinarizer.InverseTransform answers exactly if some label was fitted, with fitted labels. An unknown label can be told from the fitted ones.", "quantifier": "for all fitted label matrices, rows and NegLabel, PosLabel", "why_tests_cant": "Unseen labels and rows of another width are not in the tests.", "anchors": ["/repo/preprocessing/label.go:28-105", "/repo/preprocessing/label.go:236-270", "/repo/preprocessing/label.go:324-338", "/repo/neural_network/basemlp64.go:1305-1331"]}
{"id": "C199", "title": "Fits of the elastic net agree up to their reported gaps", "statement": "Two fits of a one-output ElasticNet with FitIntercept and the same Alpha, L1Ratio, Positive and Normalize, on data that differ by the order of the samples and features, shifts of the features and outputs and, under Normalize, the units of the features, are close: the squared differences of their predictions for the training rows, plus Alpha*(1-L1Ratio)*n times the squared differences of the (normalised) coefficients, sum to at most 4 times the sum of the two values of CDResult.Gap. Fits of the same data which report the gap 0 are the same model if Alpha > 0 and L1Ratio < 1.", "quantifier": "for all data (varying columns under Normalize), Alpha >= 0, 0 <= L1Ratio <= 1, random or cyclic selections, cold and warm starts, tolerances, MaxIter >= 1", "why_tests_cant": "Relates pairs of runs over all data sets, random draws and starts.", "anchors": ["/repo/linear_model/coordinatedescent.go:20-80", "/repo/linear_model/cdfast.go:1-170", "/repo/linear_model/Base.go:559-660"]}
{"id": "C200", "title": "What a Bayesian ridge regression does not depend on", "statement": "Fitted to data whose rows, features and outputs are in another order, whose features have other origins and (with Normalize) other units or signs, and whose outputs are shifted or reflected, a BayesianRidge predicts the same for every row in those coordinates and reports the same Alpha and Lambda; the singular value decomposition used and earlier contents of the struct do not matter; the standard deviations of Predict2 are the same too.", "quantifier": "for all data with more samples than features (varying columns under Normalize), positive prior parameters, NIter >= 1, with or without FitIntercept", "why_tests_cant": "Relates pairs of fits over all data sets and all decompositions.", "anchors": ["/repo/linear_model/bayes.go:48-204", "/repo/linear_model/bayes.go:242-263", "/repo/linear_model/Base.go:559-660"]}
{"id": "C201", "title": "Support vector machines with exchanged classes, reflected targets, moved samples", "statement": "With the same random numbers: exchanging the labels -1 and 1 given to SVC.Fit exchanges the predicted classes; negating the targets given to SVR.Fit negates the predictions; reordering or mirroring features (for the radial kernel also shifting all rows) of all rows changes no prediction. The labels returned by SVC.Predict can be used in SVC.Fit.", "quantifier": "for all kernels, samples, parameters, random numbers and runs", "why_tests_cant": "Relates pairs of training runs of unbounded length over all data.", "anchors": ["/repo/svm/svm.go:50-198", "/repo/svm/svm.go:255-310", "/repo/svm/svr.go:47-215", "/repo/svm/kernels.go:18-53"]}
{"id": "C202", "title": "Logistic regression has one optimum, which does not depend on coordinates and names", "statement": "All parameters at which the gradient used by LogisticRegression.Fit vanishes give every row the same class probabilities. Rows or features in another order, mirrored features, features with other origins, classes in another order, or every row k times with k times the penalty give the same probabilities for the corresponding rows; exchanging the targets 0 and 1 gives complementary ones; other names for two classes change nothing.", "quantifier": "for all data with at least one row, any number of features and outputs, Alpha > 0 (Alpha >= 0: on the training rows), all moves and all stationary parameters", "why_tests_cant": "Relates all optima of pairs of unbounded data sets.", "anchors": ["/repo/linear_model/logistic.go:64-131", "/repo/linear_model/logistic.go:181-266", "/repo/linear_model/logistic.go:338-379", "/repo/linear_model/logistic.go:389-450"]}
{"id": "C203", "title": "What a principal component analysis does not depend on", "statement": "The singular values, the explained ratios and the number of components of a fitted PCA do not depend on the singular value decomposition used, the order of the rows (or any isometry of them), the order, signs or rotation of the features; multiplying all data by a common factor a multiplies singular values by |a| and leaves ratios and number of components alone. Where the last component kept is separated from the first one dropped, scalar products and distances between transformed rows are the same as well, up to the factor a*a.", "quantifier": "for all matrices with at least as many rows as columns, all settings, isometries, factors and decompositions", "why_tests_cant": "Relates all decompositions of pairs of real matrices.", "anchors": ["/repo/preprocessing/pca.go:28-66"]}
{"id": "C204", "title": "Interpolation commutes with changes of units and with sums", "statement": "Measuring abscissae or ordinates in other units, from other origins or in the opposite direction changes the functions returned by Interp1d and CubicSpline in the same way, at every point of the axis. Interpolating a combination of two series known at the same abscissae is combining the interpolations. Points of a straight line give that line, also outside their range. If the known ordinates never decrease, neither does the function of Interp1d; the spline need not keep order or sign.", "quantifier": "for all lists of at least two points with distinct abscissae in any order (Interp1d: with NaN ordinates except at the ends), all units and coefficients, all x, all sorts and all correct solvers", "why_tests_cant": "Relates pairs of unbounded data sets at every real point.", "anchors": ["/repo/interpolate/interpolate.go:19-62", "/repo/interpolate/cubic.go:11-77"]}
{"id": "C205", "title": "What the log marginal likelihood does not depend on", "statement": "Value and gradient of LogMarginalLikelihood do not change when the training rows are rearranged (rows of X, rows of Y and per-row alpha alike), when features are rearranged or mirrored (one length scale), when all rows are translated and the kernel says it is stationary; exchanging the operands of a sum or product of kernels, with theta arranged accordingly, keeps the value and exchanges the halves of the gradient; for several outputs they are the sums of those for single outputs.", "quantifier": "for all kernels built from the six kinds, data of any size, theta, alpha and moves", "why_tests_cant": "Relates pairs of unbounded data sets, kernels and their factorisations.", "anchors": ["/repo/gaussian_process/gpr.go:133-271", "/repo/gaussian_process/kernels/kernels.go:125-136", "/repo/gaussian_process/kernels/kernels.go:168-190", "/repo/gaussian_process/kernels/kernels.go:223-253", "/repo/gaussian_process/kernels/kernels.go:444-480", "/repo/gaussian_process/kernels/kernels.go:547-611"]}
{"id": "C206", "title": "A view of a wider matrix is transformed like a copy of it", "statement": "StandardScaler, MaxAbsScaler, Imputer, LabelEncoder, PolynomialFeatures, LabelBinarizer and KernelCenterer work on the raw data of their argument. Whatever its layout (stride), the result holds, in every cell, the textbook value computed from the same cell of the argument; two matrices with the same cells give the same result, or both panic; columns are read from top to bottom without cells of the neighbours; an argument with more columns than were fitted makes Transform panic, except that PolynomialFeatures ignores the surplus columns; one with fewer columns makes PolynomialFeatures panic.", "quantifier": "for every matrix header with non-overlapping rows, every stride, every fitted state", "why_tests_cant": "Tests pass freshly made matrices, whose stride is the number of columns.", "anchors": ["/repo/preprocessing/data.go:185-233", "/repo/preprocessing/data.go:583-597", "/repo/preprocessing/data.go:939-992", "/repo/preprocessing/data.go:1101-1139", "/repo/preprocessing/imputation.go:29-84", "/repo/preprocessing/label.go:30-80", "/repo/preprocessing/label.go:297-363"]}
{"id": "C207", "title": "Transformers and pipelines leave the caller's matrices alone and return matrices of their own", "statement": "Transform of a preprocessing transformer and Fit, Score and Predict of a pipeline change no matrix of the caller except the destination of Predict; predicting twice for the same X gives the same predictions; the destination gets the value the steps give when applied one after the other; the matrices returned by Transform are new, so that writing to them does not reach the arguments, and Y is passed on.", "quantifier": "for every memory, every argument type (Dense, other types with or without access to their data, nil), every list of steps and every fitted state", "why_tests_cant": "Tests look at returned values for one call; overwritten arguments and shared results show in later calls only, and depend on the dynamic type of the argument.", "anchors": ["/repo/base/matrix.go:198-241", "/repo/pipeline/pipeline.go:62-134", "/repo/preprocessing/data.go:103-110", "/repo/preprocessing/data.go:815-836", "/repo/preprocessing/data.go:1291-1317", "/repo/preprocessing/discretization.go:61-94", "/repo/preprocessing/label.go:53-80", "/repo/preprocessing/functiontransformer.go:33-36"]}
{"id": "C208", "title": "Estimators behind a scaler", "statement": "A pipeline that starts with MinMaxScaler, StandardScaler or RobustScaler predicts and scores the same when every feature is measured in another unit and from another origin, both for fitting and for predicting, whatever steps and estimator follow, as long as no feature is constant. LinearRegression with intercept on samples in no hyperplane, and GaussianNB without variance smoothing, predict on every row the same with scalers of any of the four kinds in front as without.", "quantifier": "for every table, units, scaler settings, following steps, estimator and query rows", "why_tests_cant": "Universal over the steps that follow, which tests can only sample.", "anchors": ["/repo/pipeline/pipeline.go:62-134", "/repo/preprocessing/data.go:60-129, 140-233, 350-440, 930-992", "/repo/linear_model/Base.go:54-100", "/repo/naive_bayes/naivebayes.go:60-200"]}
{"id": "C209", "title": "DBSCAN with a larger radius, a smaller MinSamples or more samples", "statement": "Raising Eps, lowering MinSamples or appending samples (weights not negative) never costs a sample its cluster: core samples stay core samples, samples in a cluster stay in a cluster, and samples that share a cluster keep sharing it. If all samples are within Eps of each other and MinSamples is below their number (or total weight) they form one cluster, number 0; if MinSamples is at least their number (or total weight) all are noise.", "quantifier": "all symmetric distances, data, weights, radii and thresholds, appended samples, sorts (ties in any order) and earlier labels", "why_tests_cant": "It compares two runs on arbitrary data; the exceptions need a sample between two clusters whose numbering changes.", "anchors": ["/repo/cluster/dbscan.go:82-124", "/repo/cluster/dbscan.go:151-185", "/repo/neighbors/unsupervised.go:139-178"]}
{"id": "C210", "title": "How neighbours change with k, the radius and the training set", "statement": "The first k distances found by KNeighbors with k' >= k neighbours are those found with k. If c samples are within a radius, RadiusNeighbors and KNeighbors with c neighbours return the same samples and distances. Further training samples never make the neighbour of a given rank more distant. Training rows that are farther from the query than k of the others do not change the predictions and class probabilities of KNeighborsClassifier and the predictions of KNeighborsRegressor (if no two of the others at the same distance have different targets).", "quantifier": "all data, queries, distances into a linear order, k, radii, added rows in any position, sorts (ties in any order), weights", "why_tests_cant": "Relates several runs on arbitrary data, with the order of ties unknown.", "anchors": ["/repo/neighbors/unsupervised.go:64-100", "/repo/neighbors/unsupervised.go:144-175", "/repo/neighbors/classification.go:58-145", "/repo/neighbors/regression.go:62-110"]}
{"id": "C211", "title": "Elastic nets solved exactly", "statement": "The Gap reported by a fit of ElasticNet or Lasso with one output is 0 exactly when the fitted model has the least cost of all. If Alpha*L1Ratio*n is at least the correlations of all centred features with the centred target (in absolute value unless Positive), the fit from zero coefficients has only zero coefficients, predicts the mean target everywhere and reports Gap 0. If the centred features are orthogonal to each other, a fit with cyclic selection gives each its soft-thresholded correlation divided by its squared length plus Alpha*(1-L1Ratio)*n, with Gap 0, whatever the start, the tolerance and MaxIter >= 1.", "quantifier": "all data, settings with Alpha >= 0 and 0 <= L1Ratio <= 1, starting coefficients, selections of coordinates", "why_tests_cant": "Exact optimality and closed forms over all data sets; tests compare a few numbers with a tolerance.", "anchors": ["/repo/linear_model/coordinatedescent.go:54-80", "/repo/linear_model/cdfast.go:15-158"]}
{"id": "C212", "title": "Ridge does not depend on how the data are presented", "statement": "A Ridge regression with Alpha > 0 whose minimiser ends at a stationary point predicts the same whatever the order of the rows and of the features, the starting coefficients, the order in which the outputs finish and the minimiser used; shifting a feature changes no prediction, shifting an output shifts its predictions, and under Normalize changing the units of a feature changes nothing. Predictions are linear in the targets. The training residuals plus the squared coefficients are at most the total squared deviations, so the training R2 is between 0 and 1. A larger Alpha gives strictly smaller coefficients unless they are all 0.", "quantifier": "all data with at least one row, permutations, shifts, positive units, starts, minimisers ending where the gradient vanishes, arrival orders", "why_tests_cant": "Relations between two or three fits on transformed data, over all data sets; tests fit one data set once.", "anchors": ["/repo/linear_model/Base.go:107-123", "/repo/linear_model/Base.go:449-556", "/repo/linear_model/Base.go:592-660", "/repo/linear_model/loss.go:33-66", "/repo/linear_model/ridge.go:9-17"]}
{"id": "C213", "title": "A larger penalty gives smaller coefficients and a larger training error", "statement": "If an ElasticNet or Lasso (one or several outputs) is fitted twice on the same data with the same L1Ratio, Normalize and Positive, the fit with the larger Alpha has no larger penalty L1Ratio*|w|+(1-L1Ratio)/2*|w|^2 and no smaller sum of squared training residuals, up to the reported Gaps: (Alpha'-Alpha)*n*(penalty'-penalty) <= Gap+Gap' and (Alpha'-Alpha)*(error-error') <= Alpha'*Gap+Alpha*Gap'. A LogisticRegression whose gradient vanishes has strictly smaller squared coefficients with the larger Alpha unless they are all zero, but their norm shrinks at most in the inverse ratio of the penalties, and its training log loss is not smaller.", "quantifier": "all data, penalties 0 <= Alpha < Alpha', starts, tolerances, iteration counts >= 1, selections of coordinates", "why_tests_cant": "A relation between two fits over all data sets and penalties; tests look at single fits.", "anchors": ["/repo/linear_model/coordinatedescent.go:54-80", "/repo/linear_model/cdfast.go:15-158", "/repo/linear_model/logistic.go:142-265"]}
{"id": "C214", "title": "InverseTransform leaves the caller's matrices alone, returns matrices of its own and hands Y on", "statement": "InverseTransform of a preprocessing transformer changes no matrix of the caller, gives what it computes in a new matrix and hands the other argument on; where InverseTransform undoes Transform on values, calling both leaves X, Y and everything else as they were and gives a new matrix with the contents of X (of Y for label transformers). On the way back of Pipeline.Predict a step either leaves the prediction alone or replaces it by a decoded copy.", "quantifier": "for every memory, every pointers X, Y, every fitted state", "why_tests_cant": "Tests compare returned values of one call; an overwritten argument or a lost Y shows only in what the caller does next.", "anchors": ["/repo/preprocessing/data.go:119-129", "/repo/preprocessing/data.go:212-233", "/repo/preprocessing/data.go:424-440", "/repo/preprocessing/data.go:606-651", "/repo/preprocessing/data.go:771-786", "/repo/preprocessing/data.go:845-868", "/repo/preprocessing/data.go:981-992", "/repo/preprocessing/data.go:1063-1083", "/repo/preprocessing/data.go:1341-1369", "/repo/preprocessing/discretization.go:103-134", "/repo/preprocessing/imputation.go:93-96", "/repo/preprocessing/label.go:89-105", "/repo/preprocessing/label.go:236-270", "/repo/preprocessing/label.go:348-363", "/repo/preprocessing/pca.go:75-88", "/repo/pipeline/pipeline.go:123-134"]}
{"id": "C215", "title": "What a network and its training do not depend on", "statement": "Renaming features, hidden units and outputs renames the predictions of a network, leaves its loss alone and renames its gradients; the order of the rows of a batch does not matter, and k copies of every row with k times the penalty give the same loss and gradients; multiplying what enters a relu unit by a positive number and dividing what leaves it by the same number does not change the network; with identity activations the network is an affine function; training from renamed parameters is the renamed training.", "quantifier": "for every number of layers, layer sizes, activation, loss, data, parameters, permutations, number of updates", "why_tests_cant": "A test compares one pair of trained networks up to a tolerance; an index mixed up between layers or a division by the wrong count can be invisible for square layers and one batch size.", "anchors": ["/repo/neural_network/basemlp64.go:152-195", "/repo/neural_network/basemlp64.go:260-275", "/repo/neural_network/basemlp64.go:311-331", "/repo/neural_network/basemlp64.go:341-407", "/repo/neural_network/basemlp64.go:1024-1041", "/repo/neural_network/basemlp64.go:1056-1072"]}
{"id": "C216", "title": "Neighbour estimators returned by cross-validation predict from the rows of their split", "statement": "An estimator returned by CrossValidate (and so the BestEstimator of a grid search) predicts, after the call has returned, what it predicted while it was scored: from the samples and targets of its own split.", "quantifier": "for every data, splits, number of jobs, schedule, query, number of neighbours, weighting", "why_tests_cant": "Scores come out right; the returned estimators go wrong only after a later split of the same job has overwritten the buffer they look into, and tests look at scores.", "anchors": ["/repo/model_selection/validation.go:63-113", "/repo/model_selection/search.go:126-131", "/repo/neighbors/classification.go:36-68", "/repo/neighbors/regression.go:44-88", "/repo/neighbors/unsupervised.go:38-62"]}
{"id": "C217", "title": "A fitted support vector machine minimises its cost up to its tolerance", "statement": "When fitting an SVC on m samples labelled -1/+1 with a positive semidefinite kernel ends with no sample violating the conditions, half the squared norm plus C times the hinge losses of the fitted function is at most m*C*Epsilon above that of every function of its kind (any weights, any offset). For an SVR the same holds with 2*m*C*Epsilon and the losses |error| - e, for every tube half width e between 0 and Epsilon.", "quantifier": "all data sets, positive semidefinite kernels, random sources, C, tolerances, competing weights and offsets", "why_tests_cant": "A test compares scores with a reference run on a few data sets; a distance from the optimum over all competing functions cannot be observed by running.", "anchors": ["/repo/svm/svm.go:75-169", "/repo/svm/svr.go:88-190"]}
{"id": "C218", "title": "The kernels of support vector machines are positive semidefinite", "statement": "The kernel a fitted SVC or SVR uses is positive semidefinite on all data, so that training is a convex problem and a training that ends with the optimality conditions met is within m*C*Epsilon (SVC) or 2*m*C*Epsilon (SVR) of the best cost; |k(x,y)|^2 <= k(x,x) k(y,y); values of the RBF kernel are in (0,1] and 1 for equal rows only.", "quantifier": "all data, all settings of Gamma, Coef0, natural Degree, all random sources", "why_tests_cant": "Positive semidefiniteness is a statement about all finite sets of rows and all weights; a test sees a few matrices.", "anchors": ["/repo/svm/kernels.go:14-53", "/repo/svm/svm.go:263-308"]}
{"id": "C219", "title": "PCA: orthogonal components, distances, nesting, kept sum of squares", "statement": "The components of the transformed training data are orthogonal and their sums of squares are the squared singular values; Transform never moves two rows (of any table) apart and keeps all distances when all components are kept; a fit with fewer components gives the first columns of one with more; with MinVarianceRatio in (0,1] the transformed training data keep at least that part of the sum of squares.", "quantifier": "all data with at least as many rows as columns, all settings, all tables to transform, every correct singular value decomposition", "why_tests_cant": "A test on one data set cannot show that no pair of rows is moved apart for all data and tables.", "anchors": ["/repo/preprocessing/pca.go:28-66"]}
{"id": "C220", "title": "CubicSpline is the smoothest curve through its points", "statement": "Among all twice continuously differentiable functions through the given points (distinct abscissae, any order, at least two), the function returned by CubicSpline has the least integral of the squared second derivative between the smallest and the greatest abscissa; every other one exceeds it by the same integral for the difference, and one with the same integral coincides with the spline there.", "quantifier": "all point sets with distinct abscissae, all competing functions", "why_tests_cant": "A statement about all competing functions and an integral; tests evaluate the spline at a few places.", "anchors": ["/repo/interpolate/cubic.go:11-77"]}
{"id": "C221", "title": "Training a linear model with the solver sgd approaches the least squares solution", "statement": "LinFit with Solver \"sgd\", MiniBatchSize at least the number of rows, the square loss and no penalty: with a small enough StepSize no epoch increases the loss, and the loss of the result tends to the least possible one as the number of epochs grows.", "quantifier": "all data sets, starting parameters, shuffles, numbers of epochs, step sizes, momenta below 1, clipping values", "why_tests_cant": "A test runs finitely many epochs from one start; that no number of epochs suffices, and that the loss never increases for any data, are statements about unbounded runs.", "anchors": ["/repo/base/optimizers.go:85-89", "/repo/base/optimizers.go:172-179", "/repo/base/optimizers.go:182-305", "/repo/linear_model/Base.go:399-448", "/repo/linear_model/loss.go:33-66"]}
{"id": "C222", "title": "KDTree.Query returns only neighbours within the bound and marks missing ones with infinite distances", "statement": "KDTree.Query(X, k, 0, p, bound) returns for each row of X the k nearest samples in order of distance; with a bound it returns only samples within that distance, and no such sample is left out unless k nearer ones are listed; places for which no neighbour exists (k greater than the number of samples, or the bound) have infinite distance.", "quantifier": "all data sets, leaf sizes, query matrices, numbers of neighbours, bounds, tie orders of the sorts", "why_tests_cant": "The bound takes effect only through pruning, so whether a sample beyond it is returned depends on how the data fall into leaves; a test sees one tree.", "anchors": ["/repo/neighbors/kdtree.go:350-432", "/repo/neighbors/kdtree.go:435-495"]}
{"id": "C223", "title": "Neighbour estimators predict the same with the kd-tree as with the exhaustive search", "statement": "For the same training data and settings, KNeighborsClassifier.Predict and PredictProba and KNeighborsRegressor.Predict give the same result whether Algorithm selects the kd-tree or the exhaustive search; in particular \"auto\" does not change predictions when the training data grow.", "quantifier": "all training sets, queries, weightings, numbers of neighbours, leaf sizes, tie orders, map orders", "why_tests_cant": "Tests compare the two searches on a few data sets with K below the number of samples; where they differ depends on the sizes, and that they agree is a statement about every tree.", "anchors": ["/repo/neighbors/unsupervised.go:54-91", "/repo/neighbors/kdtree.go:435-495", "/repo/neighbors/classification.go:58-148", "/repo/neighbors/regression.go:62-109"]}
{"id": "C224", "title": "Multi-task elastic nets are solved exactly where a closed form exists, and independently of how they are solved", "statement": "A multi-task fit with at least one iteration reports gap 0 exactly if its coefficients minimise the objective; with orthogonal columns one sweep over all features gives the group soft-thresholded correlations from any start; with a penalty at least as large as every feature's correlation vector all coefficients stay 0; two fits, the second possibly on the outputs in other orthonormal axes, agree in predictions and coefficients up to four times the sum of their gaps.", "quantifier": "all data, penalties, starts, selections of features, tolerances, numbers of iterations, orthogonal matrices", "why_tests_cant": "Tests compare with stored coefficients up to a tolerance; that the reported gap bounds the distance of any two runs, and that the result does not depend on the axes of the outputs, are statements about all runs.", "anchors": ["/repo/linear_model/cdfast.go:159-333"]}
{"id": "C225", "title": "What estimators predict between two rows and far from the training rows", "statement": "If KMeans, GaussianNB with equal variances in all classes, LogisticRegression or an SVC with the linear kernel predict the same label for two rows, they predict it for every row on the segment between them; an SVR with the linear kernel predicts the value between its predictions for the two rows. With the RBF kernel all queries far enough from every training row get the same prediction: SVR values come arbitrarily close to one constant per output, SVC labels are equal unless an offset is 0.", "quantifier": "all fitted models, rows, points of the segment, numbers of classes and outputs", "why_tests_cant": "Tests predict for finitely many rows; the shape of the regions with the same label and the behaviour at infinity concern infinitely many queries.", "anchors": ["/repo/cluster/kmeans.go:34-45", "/repo/cluster/kmeans.go:107-145", "/repo/svm/svm.go:183-196", "/repo/svm/svm.go:263-328", "/repo/svm/svr.go:209-233", "/repo/naive_bayes/naivebayes.go:41-46", "/repo/naive_bayes/naivebayes.go:249-260", "/repo/linear_model/logistic.go:181-196", "/repo/linear_model/logistic.go:338-379", "/repo/linear_model/logistic.go:454-519"]}
{"id": "C226", "title": "PolynomialFeatures with LinearRegression recovers polynomials", "statement": "PolynomialFeatures with IncludeBias false, followed by a LinearRegression with intercept: if the targets are the values of a polynomial of total degree at most Degree at training rows which determine such polynomials (for example rows that contain a grid with Degree+1 values per feature), the fitted model predicts the value of the polynomial for every row.", "quantifier": "all numbers of features, degrees, polynomials, training rows, queries, least squares solvers", "why_tests_cant": "Tests fit single polynomials; that every monomial is present exactly once and that nothing but the polynomial is predicted away from the training rows concerns all polynomials and all queries.", "anchors": ["/repo/preprocessing/data.go:562-594", "/repo/preprocessing/itertools.go:18-93", "/repo/linear_model/Base.go:89-123", "/repo/linear_model/Base.go:164-276"]}
{"id": "C227", "title": "KernelCenterer centres the features behind the kernel", "statement": "Let the kernel values be inner products of features. KernelCenterer fitted on the training kernel matrix of n rows turns the kernel values between at most n rows and the training rows into the inner products of the features minus the mean of the training features; so moving all features by the same vector does not change the result. For every square matrix the squared distances K(i,i)+K(j,j)-K(i,j)-K(j,i) are kept and centring a centred matrix changes nothing.", "quantifier": "all numbers of rows and features, all features, all square matrices", "why_tests_cant": "Tests compare one small linear kernel with expected numbers; the identity with explicit centring concerns every feature map and new rows.", "anchors": ["/repo/preprocessing/data.go:1101-1117", "/repo/preprocessing/data.go:1120-1139"]}
{"id": "C228", "title": "Best constant predictions", "statement": "MeanSquaredError of a constant prediction is that of the mean of the targets plus the squared difference to the mean; no constant has a smaller MeanAbsoluteError than a median; R2Score of a constant is at most 0 and is 0 only for the (weighted) mean, when the targets vary by at least the code's threshold; AccuracyScore of one label for all samples is the share of the weight of that label; among constant probability vectors the class shares have the least log_loss.", "quantifier": "all targets, weights, labels, constants, probability vectors with entries at least the clamping bound", "why_tests_cant": "Tests compute the scores of single predictions; optimality compares with every other constant.", "anchors": ["/repo/metrics/regression.go:83-244", "/repo/metrics/classification.go:12-40", "/repo/neural_network/basemlp64.go:162-179"]}
{"id": "C229", "title": "Error of linear interpolation", "statement": "Interp1d on samples of a function g, at a point between two abscissae: if the slopes of g are at most L, the result differs from g by at most L*H/2, and if the second derivative of g is at most M in absolute value, by at most M*H^2/8, where H is the largest distance of neighbouring known samples (NaN ordinates are skipped). For a convex g the result is at least g inside the range and at most g outside.", "quantifier": "all functions g of the stated kind, all sample points in any order with different abscissae and known end ordinates, all evaluation points", "why_tests_cant": "Tests evaluate a few points of one function; the error bounds hold for all functions and all points.", "anchors": ["/repo/interpolate/interpolate.go:30-62"]}
{"id": "C230", "title": "Training residuals, further features and further rows of linear and logistic regression", "statement": "LinearRegression with intercept on samples in no hyperplane: the training residuals sum to 0 and are orthogonal to every feature, the mean row is predicted as the mean target, and the variation of the targets is that of the predictions plus that of the residuals; a model with more features has at most the squared residuals; the coefficient of a feature is the slope of the targets over the residuals of that feature predicted from the others; a further row whose target is the model's prediction changes nothing; raising one target by d moves the prediction of its row by between 0 and d. Logistic regression where its gradient is zero: the mean predicted probability of each class is its share, and the sum of a feature times (target minus probability) is alpha times its coefficient.", "quantifier": "all data in no hyperplane, numbers of rows and features, least squares solvers, rows, targets, changes", "why_tests_cant": "Tests compare fitted coefficients of a few data sets with recorded numbers; these identities relate fits of different data for every data set.", "anchors": ["/repo/linear_model/Base.go:89-123", "/repo/linear_model/Base.go:559-581", "/repo/linear_model/Base.go:592-660", "/repo/linear_model/logistic.go:97-131"]}
{"id": "C231", "title": "Trainings of support vector machines agree, and only support vectors matter", "statement": "Training of an SVC or SVR that ends with the optimality conditions met (up to Epsilon). Two such trainings on the same data, with other random numbers, Tol and MaxIter, give functions whose difference has a squared kernel norm of at most 2*m*C*Epsilon (SVC) or 4*m*C*Epsilon (SVR), so values at any row differ, apart from the offset, by at most the square root of that bound times the kernel value of the row with itself. Removing training samples with multiplier 0 leaves the function unchanged and optimal up to Epsilon for the remaining samples. The samples of a class that are misclassified, or right by less than 1-Epsilon, are at most as many as the support vectors of the other class.", "quantifier": "all kernels (symmetric, positive semidefinite), data, labels, random draws, tolerances, rows", "why_tests_cant": "Tests train once with a fixed seed; agreement of all trainings and the irrelevance of the other samples concern all draws and all data.", "anchors": ["/repo/svm/svm.go:50-176", "/repo/svm/svr.go:47-192"]}
{"id": "C232", "title": "LabelBinarizer64 lists each label once and encodes it at its place", "statement": "After LabelBinarizer64.Fit the classes of each target column are the labels that occur in it, each once and in increasing order; they do not depend on the order of the rows, on how sort.Sort treats ties, or on the stride and the cells beside the matrix. FitTransform gives a row-major matrix where, for each row and target column, the cell of the class of the label holds PosLabel and the cells of the other classes hold NegLabel. Fit changes PosLabel only if it equals NegLabel, and then they differ.", "quantifier": "all label matrices (with NaN labels), strides, sorts, NegLabel and PosLabel", "why_tests_cant": "Tests binarize one matrix without NaN, with NegLabel 0 and a stride equal to the number of columns; the position of every cell concerns all shapes and numbers of classes.", "anchors": ["/repo/neural_network/basemlp64.go:1275-1302", "/repo/neural_network/basemlp64.go:1305-1339"]}
{"id": "C233", "title": "The losses give the gradient with any activation", "statement": "SquareLoss, CrossEntropyLoss and LogLoss called for all samples with any activation whose Fprime is its derivative (as a function of the value) fill grad with the partial derivatives of the value they return.", "quantifier": "all data, coefficients, activations and outputs; no penalty", "why_tests_cant": "Tests compare gradients for the identity with the square loss and for the logistic function with cross entropy; the branches for other activations are not compared, and a wrong gradient may still reduce the loss on scaled data.", "anchors": ["/repo/linear_model/loss.go:33-66", "/repo/linear_model/loss.go:69-116", "/repo/linear_model/loss.go:121-208", "/repo/base/activation.go:15-71"]}
{"id": "C234", "title": "KMeans finds groups of rows that are apart", "statement": "If the training rows fall into NClusters groups such that rows of different groups are farther apart than rows of one group (squared distances by a factor of more than 3/2), KMeans.Fit finds the groups: Predict gives two training rows the same label exactly if they are in one group, and each centroid is the mean of its group.", "quantifier": "all data sets, numbers of clusters and features, distances that order as the Euclidean one, orders of summation", "why_tests_cant": "Tests cluster a few generated blobs and compare the outcome with a tolerance; whether every data set of separated groups is clustered right, and that it hinges on the first rows, concerns all data sets and orders of rows.", "anchors": ["/repo/cluster/kmeans.go:34-102", "/repo/cluster/kmeans.go:107-145"]}
{"id": "C235", "title": "DBSCAN and the neighbour predictors on groups of rows that are apart", "statement": "If the rows come in groups such that two rows are within Eps exactly when they are in one group, DBSCAN.Fit makes one cluster of every group heavier than MinSamples and noise of all other rows. If at least K training rows have the target c and are nearer to a query than every other training row, KNeighborsClassifier and KNeighborsRegressor predict c for it.", "quantifier": "all data sets, symmetric (DBSCAN) or nonnegative (neighbours) distances, weights, values of Eps, MinSamples and K, orders of equal distances and of the map of votes", "why_tests_cant": "Tests cluster or classify a few generated points; that the groups are found whatever their number, sizes, weights and order of the rows concerns all data sets.", "anchors": ["/repo/cluster/dbscan.go:83-185", "/repo/neighbors/classification.go:58-150", "/repo/neighbors/regression.go:62-109"]}
{"id": "C236", "title": "How good a clustering KMeans finds", "statement": "KMeans.Fit finds the clustering with the least sum of squared distances of the rows to the centroids of their clusters. (What holds:) The sum is never more than with the first NClusters rows as centroids, is not reduced by assigning rows to other centroids or by moving centroids, never exceeds that of a single cluster, is the least for one cluster, and is 0 if every row equals one of the first.", "quantifier": "all data sets, numbers of clusters and features, distances that order as the Euclidean one, orders of summation", "why_tests_cant": "Tests look at the outcome on a few generated blobs; that no run on any data ends worse than it started, or at a point that one more reassignment would improve, cannot be sampled.", "anchors": ["/repo/cluster/kmeans.go:34-102", "/repo/cluster/kmeans.go:107-145"]}
{"id": "C237", "title": "Scalers and power transforms keep the ranking of a feature", "statement": "A chain of MinMaxScaler, StandardScaler, RobustScaler, MaxAbsScaler, Yeo-Johnson (parameter not 0) and Box-Cox (positive values) transforms, each fitted on the output of the one before, keeps the strict order of the values of a column. Hence the ROC curve, the area under it, precisions, recalls and average precision of a feature used as a score are the same before and after.", "quantifier": "all columns, weights, settings of the scalers, parameters of the power transforms, lengths of the chain, orders in which ties are sorted", "why_tests_cant": "Tests compare a few transformed columns with numbers; that no chain, whatever its settings, merges or exchanges two values of any column is a statement about all of them.", "anchors": ["/repo/preprocessing/data.go:60-135", "/repo/preprocessing/data.go:150-230", "/repo/preprocessing/data.go:330-440", "/repo/preprocessing/data.go:920-990", "/repo/preprocessing/data.go:1404-1436", "/repo/preprocessing/data.go:1499-1511", "/repo/metrics/ranking.go:71-222"]}
{"id": "C238", "title": "Error of bilinear interpolation", "statement": "Interp2d on samples of a function g, at a position between neighbouring first abscissae a and b whose points span y with gaps of at most H: if the slopes of g are at most L1 and L2 in the two directions, the result differs from g by at most L1*(b-a)/2 + L2*H/2; if its second derivatives are at most M1 and M2 in absolute value, by at most M1*(b-a)^2/8 + M2*H^2/8. The result lies between any bounds of the values given.", "quantifier": "all functions g of the stated kind, all point sets without duplicates and with two points at every first abscissa (the slices need not share their second abscissae), all positions in range, all orders the sorts may leave", "why_tests_cant": "The test evaluates three positions of two grids; error bounds hold for all functions, point sets and positions.", "anchors": ["/repo/interpolate/interpolate.go:75-111", "/repo/interpolate/interpolate.go:30-62"]}
{"id": "C239", "title": "Best and worst values of the scores, and how scores are related", "statement": "With positive weights the area under the ROC curve is 1 exactly when every positive is scored above every negative, 0 exactly when below, and 1/2 when all scores are equal; the average precision is 1 exactly when every positive is scored above every negative, and the share of the positives when all scores are equal. The F-score of a class lies between its precision and recall. The squared mean absolute error is at most the mean squared error, which is at most the largest error times the mean absolute error. R2Score and MeanSquaredError order any two predictions of the same targets alike.", "quantifier": "all samples, scores, positive weights, values of beta, orders in which ties are sorted, targets and predictions", "why_tests_cant": "Tests compare single values; an 'exactly when' about the extreme values and inequalities between scores concern all samples.", "anchors": ["/repo/metrics/ranking.go:13-222", "/repo/metrics/classification.go:74-178", "/repo/metrics/regression.go:83-244"]}
{"id": "C240", "title": "How far changed targets reach", "statement": "If no training target changes by more than delta, no prediction of KNeighborsRegressor does; with uniform weights a change of one target moves a prediction by at most the k-th part of it. If no ordinate changes by more than delta, no value of Interp1d between the smallest and largest abscissa does. For LinearRegression with an intercept the squared changes of the training predictions sum to at most those of the targets, and a change of one target moves the prediction for its row in the same direction, by between the n-th part of it and the whole. Predictions that differ by at most delta have mean absolute errors that do.", "quantifier": "all training sets, queries, targets, changes, numbers of neighbours, distances, sort orders of ties, and both kinds of weights", "why_tests_cant": "A test perturbs one data set in one direction; the bounds hold for every perturbation.", "anchors": ["/repo/neighbors/regression.go:62-117", "/repo/interpolate/interpolate.go:30-71", "/repo/linear_model/Base.go:89-123", "/repo/linear_model/Base.go:559-660", "/repo/metrics/regression.go:220-244"]}
{"id": "C241", "title": "What changed targets, labels and predictions do to ridge regressions, votes and the accuracy", "statement": "If the targets of a Ridge regression with an intercept and Alpha > 0 change, the squared changes of its training predictions plus twice the squared changes of its coefficients (in the units of the features) sum to at most the squared changes of the targets. If a class has more than m votes above half of the k nearest training rows, KNeighborsClassifier with uniform weights predicts it and still does when any m training labels are replaced. Two predictions have accuracies that differ by at most the share, in the total weight, of the rows on which the predictions differ.", "quantifier": "all training sets, targets, labels, queries, numbers of neighbours and of changed labels, weights, sort orders of ties and map orders", "why_tests_cant": "A test changes a few labels of one data set; the claims bound the effect of every change.", "anchors": ["/repo/linear_model/ridge.go:9-17", "/repo/linear_model/Base.go:89-123", "/repo/neighbors/classification.go:58-148", "/repo/metrics/classification.go:12-36"]}
{"id": "C242", "title": "Outliers and scalers", "statement": "After StandardScaler is fitted on n rows, no scaled training value exceeds the square root of n - 1 in absolute value, and at most n / t^2 of the values of a feature reach t. RobustScaler learns the same median and divider, hence transforms every value alike, when values above its upper quantile are replaced by any other values above it and values below its lower quantile by any others below it.", "quantifier": "all columns, numbers of rows, thresholds, quantile ranges and replaced values", "why_tests_cant": "An outlier in a test has one size; the claims hold for every size and place of the outliers.", "anchors": ["/repo/preprocessing/data.go:148-203", "/repo/preprocessing/data.go:309-415"]}
{"id": "C243", "title": "Margins and diagonal of the confusion matrix", "statement": "When every predicted label is also a true label, row r of ConfusionMatrix sums to the weight of the samples of class r, column c to the weight of the samples predicted as c, and its diagonal to the weight of the samples predicted correctly. With weights that are not negative and not all 0, AccuracyScore of the same labels is the sum of the diagonal divided by the sum of all cells, and is 1 exactly when every cell off the diagonal is 0.", "quantifier": "all label vectors whose predicted labels occur among the true ones, all weights", "why_tests_cant": "A test compares a few matrices cell by cell with numbers computed beforehand.", "anchors": ["/repo/metrics/classification.go:12-35", "/repo/metrics/classification.go:150-178"]}
{"id": "C244", "title": "Number and order of the columns of PolynomialFeatures", "statement": "PolynomialFeatures orders its columns by total degree and, for equal degrees, puts the larger exponent at the first feature where two monomials differ first (x0^2, x0 x1, x1^2); together with the set of the monomials asked for this determines its Powers. With n features and degree d it makes (n+d)!/(n! d!) columns, with InteractionOnly as many as there are sets of at most d features, hence 2^n when d is at least n; one less without the bias.", "quantifier": "all numbers of features, degrees and flags", "why_tests_cant": "A test lists the columns for two or three features and one degree.", "anchors": ["/repo/preprocessing/itertools.go:18-93", "/repo/preprocessing/data.go:562-580"]}
{"id": "C245", "title": "Interp1d keeps order and slopes; exchanged coordinates give the inverse", "statement": "If all slopes between the known points given to Interp1d are between m and M, so are all slopes of the function returned, extrapolation included; hence it does not fall when the points do not, and changes by at most L times the change of its argument when the points do. If the points rise, the function rises strictly, and interpolating the same points with the coordinates exchanged gives its inverse on the whole line.", "quantifier": "all lists of at least two points with different abscissae whose first and last ordinates are known, in any order, and all arguments", "why_tests_cant": "Tests evaluate a few arguments; monotonicity and inversion concern all pairs of arguments.", "anchors": ["/repo/interpolate/interpolate.go:30-62"]}
{"id": "C246", "title": "Rows left out of the training of a linear regression", "statement": "LinearRegression with an intercept, on samples in no hyperplane, predicts any block of rows at least as well (sum of squared errors) when they are among the training rows as when they are left out, and the remaining rows at most as well. For a single further row there is a factor 1-h, the same for all targets of the row, with 1/(n+1) <= h < 1, by which including it shrinks the error of its prediction. Ridge too predicts no block of rows worse when it is trained on them.", "quantifier": "all training sets, left out rows and targets, with and without Normalize", "why_tests_cant": "A test compares the errors for one split of one data set.", "anchors": ["/repo/linear_model/Base.go:89-123", "/repo/linear_model/Base.go:164-276"]}
{"id": "C247", "title": "Training on several copies of every row", "statement": "Repeating every training row the same number of times, in any order, changes nothing but the counts: StandardScaler.Fit learns the same means and variances, RobustScaler.Fit transforms every value alike, LinearRegression with an intercept gets the same coefficients, and a new GaussianNB predicts the same labels and probabilities (only its class counts are multiplied). Two elastic nets without Normalize, one trained on the copies, agree up to their reported gaps. For MinMaxScaler and MaxAbsScaler only the set of the values of a column matters.", "quantifier": "all training sets, numbers of copies, orders and values", "why_tests_cant": "A test duplicates one data set once.", "anchors": ["/repo/preprocessing/data.go:54-130", "/repo/preprocessing/data.go:156-230", "/repo/preprocessing/data.go:353-440", "/repo/preprocessing/data.go:928-990", "/repo/linear_model/Base.go:89-123", "/repo/naive_bayes/naivebayes.go:133-236", "/repo/linear_model/coordinatedescent.go:20-80"]}
{"id": "C248", "title": "Score, slopes and correlations of a linear regression", "statement": "The Score of a LinearRegression with an intercept on its training rows lies between 0 and 1, is the squared correlation of its predictions with the targets, is 1 exactly if every target is predicted, and 0 exactly if no feature is correlated with the targets. With one feature the slope is the covariance divided by the variance of the feature, the line goes through the means, and the Score is the squared correlation of feature and target; with feature and target exchanged the Score is the same, and it is the product of the two slopes.", "quantifier": "all training sets in no hyperplane with one column of targets, with and without Normalize", "why_tests_cant": "A test computes one score of one data set.", "anchors": ["/repo/linear_model/Base.go:89-123", "/repo/linear_model/Base.go:559-600", "/repo/metrics/regression.go:83-128"]}
{"id": "C249", "title": "Columns after imputation", "statement": "An Imputer fitted again on the column it has filled learns the same statistic, with the mean, the median and (if a cell was missing) the most frequent value. Filling with the mean multiplies the population variance by the share of cells that were present, so the variance never grows, and stays the same only if nothing was missing or all present values are equal. A StandardScaler with WithMean fitted after filling with the mean, and a centring RobustScaler fitted after filling with the median, turn every missing cell into exactly 0. With every strategy the statistic lies between two present values, so MinMaxScaler and MaxAbsScaler fitted on the filled column transform every value as if fitted on the present values alone.", "quantifier": "all columns with a present value, all numbers and positions of missing cells, all map iteration orders", "why_tests_cant": "A test fills one column and compares a few numbers; the variance and the scalers' zeros hold for every pattern of missing cells.", "anchors": ["/repo/preprocessing/imputation.go:29-84", "/repo/preprocessing/data.go:145-205", "/repo/preprocessing/data.go:353-420"]}
{"id": "C250", "title": "Scores of parts and of the whole", "statement": "When samples are divided into parts, the AccuracyScore of all samples is the mean of the accuracies of the parts weighted with their weights, the unnormalised accuracies add up, the mean squared and absolute errors are the means of those of the parts weighted with their numbers of samples, and the confusion matrix is the sum of those of the parts if all parts contain the same true labels and only these are predicted. R2Score of all samples is at least the mean of the scores of the parts weighted with their sums of squares about their means.", "quantifier": "all divisions into any number of parts of any sizes with samples, all labels and predictions, all weights that are not negative and not all 0 in a part (any weights for the confusion matrix); for R2Score, parts whose sums of squares about their means are not below the smallest the code divides by", "why_tests_cant": "A test compares two numbers for one division of one data set.", "anchors": ["/repo/metrics/classification.go:12-35", "/repo/metrics/classification.go:154-178", "/repo/metrics/regression.go:83-125", "/repo/metrics/regression.go:153-244"]}
{"id": "C251", "title": "GaussianNB with common variances", "statement": "When all classes have the same variances, the logarithm of the ratio of the probabilities that GaussianNB gives to two classes is an affine function of the row: that of the ratio of the priors plus, for every feature, the distance to the middle of the two class means times the difference of the means divided by the variance. When the priors agree too, Predict returns the class with the nearest mean (distances measured in standard deviations), the first one in case of ties.", "quantifier": "all trained models with positive priors and common positive variances, any number of classes and features, all rows", "why_tests_cant": "A test predicts a few rows of one model.", "anchors": ["/repo/naive_bayes/naivebayes.go:41-84", "/repo/naive_bayes/naivebayes.go:249-260"]}
{"id": "C252", "title": "How far the outputs of a network move", "statement": "When no feature of a row changes by more than d, no output of a regression perceptron changes by more than d times the product, over its layers, of the greatest sum of absolute weights entering a unit, and of the greatest slopes of the hidden activations (1 for identity, tanh and relu, 1/4 for logistic); the probability given by a binary classifier changes by at most a quarter of that. With tanh or logistic hidden units no output of a regression perceptron exceeds the sum of the absolute weights and intercept of its output unit, whatever the row. The logarithm of the ratio of the probabilities of two classes of a classifier with several outputs changes by at most twice that bound, so a class ahead of another one by more stays ahead.", "quantifier": "all networks with any number and sizes of layers, all rows", "why_tests_cant": "A test compares the outputs for a few pairs of rows.", "anchors": ["/repo/neural_network/basemlp64.go:79-104", "/repo/neural_network/basemlp64.go:205-211", "/repo/neural_network/basemlp64.go:260-275"]}
{"id": "C253", "title": "How far a support vector machine gets from its offset", "statement": "The value a trained SVR predicts for a row whose kernel values with the training samples lie between 0 and 1, as they always do with the RBF kernel, is no further from its offset than half the number of training samples times C; a trained SVC whose offset is further from 0 than that gives all such rows the same label.", "quantifier": "all training sets, kernels, targets, settings, random choices of partners and numbers of passes after which training has ended, all rows with such kernel values", "why_tests_cant": "A test predicts a few rows of one trained machine.", "anchors": ["/repo/svm/svr.go:47-215", "/repo/svm/svm.go:79-169", "/repo/svm/svm.go:178-198"]}
