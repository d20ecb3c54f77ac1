{
 "claims": [
  {
   "property": "C01",
   "status": "proved",
   "theorems": [
    "Sk.Parallel.C01_parallelize_exact_cover",
    "Sk.Parallel.C01_parallelize_workers"
   ],
   "note": "All thread counts and N; integer overflow not modelled."
  },
  {
   "property": "C02",
   "status": "proved",
   "theorems": [
    "Sk.Parallel.C02_parallelize_schedule_independent",
    "Sk.Parallel.C02_parallel_for"
   ],
   "note": "All interleavings of atomic cell updates under sequential consistency; weak memory not modelled (workers touch disjoint cells)."
  },
  {
   "property": "C03",
   "status": "partial",
   "theorems": [
    "Sk.Matrix.C03_general_slice",
    "Sk.Matrix.C03_col_slice",
    "Sk.Matrix.C03_row_slice",
    "Sk.Matrix.C03_transpose",
    "Sk.Matrix.C03_matRowSlice_read",
    "Sk.Matrix.C03_row_slice_of_col_slice_violated",
    "Sk.Matrix.C03_matRowSlice_write_violated",
    "Sk.Matrix.C03_matRowSlice_bound_violated",
    "Sk.Matrix.C03_no_escape"
   ],
   "note": "row slices of column slices and MatRowSlice refuted"
  },
  {
   "property": "C04",
   "status": "proved",
   "theorems": [
    "Sk.Split.C04_kfold_partition",
    "Sk.Split.C04_kfold_empty_panics"
   ],
   "note": "All random draws, shuffled or not."
  },
  {
   "property": "C05",
   "status": "partial",
   "theorems": [
    "Sk.Split.C05_folds_overlap_violated",
    "Sk.Split.C05_folds_partition_partial"
   ],
   "note": "The code violates the property: for every N>=2 and 2<=n<=N there are draws with overlapping test sets (proved). Partial: disjoint test sets cover all rows."
  },
  {
   "property": "C06",
   "status": "proved",
   "theorems": [
    "Sk.Split.C06_train_test_split",
    "Sk.Split.C06_train_test_split_fraction"
   ],
   "note": "Permutation drawn by the generator is a parameter; gonum NewDense panics on zero rows (contract)."
  },
  {
   "property": "C07",
   "status": "partial",
   "theorems": [
    "Sk.Search.C07_grid_is_product",
    "Sk.Search.C07_grid_order_irrelevant",
    "Sk.Search.C07_empty_values_violated",
    "Sk.Search.C07_empty_grid_violated",
    "Sk.Search.C07_order_dependent_violated"
   ],
   "note": "Proved for every non-empty grid without empty value lists and every map order. Violated by the code for empty value lists (order dependent) and for the empty grid, both proved."
  },
  {
   "property": "C08",
   "status": "partial",
   "theorems": [
    "Sk.Search.C08_gridsearch_best",
    "Sk.Search.C08_nan_first_violated"
   ],
   "note": "Proved for all numeric scores, ties, both directions; violated when the first candidate's score is NaN (proved)."
  },
  {
   "property": "C09",
   "status": "partial",
   "theorems": [
    "Sk.CrossVal.C09_crossvalidate_slots",
    "Sk.CrossVal.C09_crossvalidate_no_panic",
    "Sk.CrossVal.C09_sort_keeps_records",
    "Sk.CrossVal.C09_swap_in_range",
    "Sk.CrossVal.C09_default_kfold_panics_violated",
    "Sk.CrossVal.C09_retained_training_data_violated"
   ],
   "note": "Slots/scores and sorting proved for all schedules and NJobs. Violated: KFold with NSplits<=0 panics in CrossValidate; estimators that keep references to their training matrices see another split's rows (both proved). Memory model sequentially consistent; durations not modelled."
  },
  {
   "property": "C10",
   "status": "partial",
   "theorems": [
    "Sk.LinClone.C10_clone_isolation_partial",
    "Sk.LinClone.C10_clone_isolation_violated",
    "Sk.LinClone.C10_crossvalidate_fitted_violated"
   ],
   "note": "Isolation proved for all histories that clone only unfitted models; violated (proved) when a fitted model is cloned, because clones share the Intercept matrix."
  },
  {
   "property": "C100",
   "status": "partial",
   "theorems": [
    "Sk.GP.C100_psd_partial",
    "Sk.GP.C100_white_violated"
   ],
   "note": "Holds when rows equal up to the tolerance are equal; otherwise WhiteKernel is not positive semidefinite (proved)."
  },
  {
   "property": "C101",
   "status": "partial",
   "theorems": [
    "Sk.GP.C101_stationary_partial",
    "Sk.GP.C101_dot",
    "Sk.GP.C101_white_violated"
   ],
   "note": "Holds without WhiteKernel, whose relative tolerance is not translation invariant (proved)."
  },
  {
   "property": "C102",
   "status": "partial",
   "theorems": [
    "Sk.GP.C102_gradient_partial",
    "Sk.GP.C102_white_violated",
    "Sk.GP.C102_anisotropic_violated",
    "Sk.GP.C102_exponent_violated"
   ],
   "note": "Holds for isotropic RBF, no exponentiation, different rows for WhiteKernel; the rest are proved violations."
  },
  {
   "property": "C103",
   "status": "partial",
   "theorems": [
    "Sk.GP.C103_value",
    "Sk.GP.C103_noise",
    "Sk.GP.C103_theta_partial",
    "Sk.GP.C103_white_violated",
    "Sk.GP.C103_exponent_violated",
    "Sk.GP.C103_fixed_operand_violated"
   ],
   "note": "The value is the log density for the covariance that is factorised (full); that covariance is the one of theta for kernels CloneWithTheta copies correctly, not with a free noise level, an exponentiation or a fixed second operand. Cholesky and solve are parameters assumed correct."
  },
  {
   "property": "C104",
   "status": "partial",
   "theorems": [
    "Sk.GP.C104_gradient_partial",
    "Sk.GP.C104_white_violated",
    "Sk.GP.C104_anisotropic_violated"
   ],
   "note": "Under the conditions of C102 and C103; wrong for a free noise level (the value does not depend on theta, the gradient does not vanish) and for an anisotropic RBF (one entry)."
  },
  {
   "property": "C105",
   "status": "partial",
   "theorems": [
    "Sk.GP.C105_predict_violated",
    "Sk.GP.C105_outputs_ignored_violated",
    "Sk.GP.C105_alpha_violated",
    "Sk.GP.C105_alpha_columns_violated",
    "Sk.GP.C105_unfitted_violated"
   ],
   "note": "Predict after Fit always panics; per-sample alpha rejected; stale contents before Fit: all proved as violations."
  },
  {
   "property": "C106",
   "status": "proved",
   "theorems": [
    "Sk.GP.C106_rescale",
    "Sk.GP.C106_isotropic",
    "Sk.GP.C106_distance",
    "Sk.GP.C106_length",
    "Sk.GP.C106_lengths"
   ],
   "note": "Over the reals, rounding not modelled."
  },
  {
   "property": "C107",
   "status": "partial",
   "theorems": [
    "Sk.Interp.C107_bilinear_partial",
    "Sk.Interp.C107_points",
    "Sk.Interp.C107_reproduces_partial",
    "Sk.Interp.C107_above_violated",
    "Sk.Interp.C107_one_abscissa_violated"
   ],
   "note": "Proved up to the greatest abscissa; above it the code continues with a constant instead of the last patch, and all points at one abscissa lose the first point or panic (both shown)."
  },
  {
   "property": "C108",
   "status": "proved",
   "theorems": [
    "Sk.Opt.C108_momentum",
    "Sk.Opt.C108_sgd",
    "Sk.Opt.C108_parameters",
    "Sk.Opt.C108_independent"
   ],
   "note": "All histories from a new optimiser."
  },
  {
   "property": "C109",
   "status": "proved",
   "theorems": [
    "Sk.Opt.C109_adam",
    "Sk.Opt.C109_constant"
   ],
   "note": "Without momentum and clipping; momentum is covered by C108_momentum."
  },
  {
   "property": "C11",
   "status": "proved",
   "theorems": [
    "Sk.Pipeline.C11_fit_chain",
    "Sk.Pipeline.C11_predict_composition",
    "Sk.Pipeline.C11_fit_predict_roundtrip",
    "Sk.Pipeline.C11_predict_panics"
   ],
   "note": "Steps are abstract; predict composition assumes the transformed X does not depend on Y; steps without inverse make Predict panic (proved)."
  },
  {
   "property": "C110",
   "status": "partial",
   "theorems": [
    "Sk.Opt.C110_adagrad_partial",
    "Sk.Opt.C110_rmsprop_partial",
    "Sk.Opt.C110_adadelta",
    "Sk.Opt.C110_descent",
    "Sk.Opt.C110_adam_not_descent",
    "Sk.Opt.C110_first_step_violated",
    "Sk.Opt.C110_rmsprop_violated"
   ],
   "note": "Exact formulas from the second step on and descent proved. Normalisation is violated: the first step of Adagrad and RMSProp is the bare gradient, and RMSProp does not normalise while the running mean is at most 1."
  },
  {
   "property": "C111",
   "status": "partial",
   "theorems": [
    "Sk.Bayes.C111_fit_partial",
    "Sk.Bayes.C111_few_samples_violated",
    "Sk.Bayes.C111_reported_violated"
   ],
   "note": "Exact description of the fit for more samples than features, assuming a correct singular value decomposition; reported Alpha is not the one used (violated), few samples panic (violated)."
  },
  {
   "property": "C112",
   "status": "partial",
   "theorems": [
    "Sk.Bayes.C112_update_partial",
    "Sk.Bayes.C112_update_violated"
   ],
   "note": "Gamma is always 0 and the residual norm is used instead of its square: violated for all non-zero X."
  },
  {
   "property": "C113",
   "status": "partial",
   "theorems": [
    "Sk.Bayes.C113_variance_partial",
    "Sk.Bayes.C113_one_feature_violated",
    "Sk.Bayes.C113_negative_violated",
    "Sk.Bayes.C113_uncentred_violated"
   ],
   "note": "With one feature the result is the variance; with several it can be negative (violated)."
  },
  {
   "property": "C114",
   "status": "partial",
   "theorems": [
    "Sk.Pca.C114_optimal",
    "Sk.Pca.C114_components",
    "Sk.Pca.C114_few_rows_violated"
   ],
   "note": "Proved for at least as many rows as columns, assuming a correct singular value decomposition; fewer rows panic (violated)."
  },
  {
   "property": "C115",
   "status": "partial",
   "theorems": [
    "Sk.Pca.C115_round_trip_partial",
    "Sk.Pca.C115_reduced_violated"
   ],
   "note": "All components: proved for every matrix; fewer components always panic (violated)."
  },
  {
   "property": "C116",
   "status": "partial",
   "theorems": [
    "Sk.Pca.C116_refit_partial",
    "Sk.Pca.C116_refit_violated"
   ],
   "note": "Explicit settings proved; the default number of components sticks to the first data set (violated)."
  },
  {
   "property": "C117",
   "status": "partial",
   "theorems": [
    "Sk.Pca.C117_centred_partial",
    "Sk.Pca.C117_uncentred_violated"
   ],
   "note": "Centred columns proved; data are never centred by Fit (violated)."
  },
  {
   "property": "C118",
   "status": "proved",
   "theorems": [
    "Sk.EnetMT.C118_step",
    "Sk.EnetMT.C118_fit",
    "Sk.EnetMT.C118_fixpoint_optimal"
   ],
   "note": "Over the reals; rounding not modelled."
  },
  {
   "property": "C119",
   "status": "partial",
   "theorems": [
    "Sk.EnetMT.C119_gap",
    "Sk.EnetMT.C119_fit_partial",
    "Sk.EnetMT.C119_count_violated",
    "Sk.EnetMT.C119_no_iteration_violated"
   ],
   "note": "Holds for MaxIter >= 1 except for the iteration count, which is MaxIter+1 when the loop does not stop early; with MaxIter = 0 the gap is meaningless."
  },
  {
   "property": "C12",
   "status": "partial",
   "theorems": [
    "Sk.Label.C12_classes",
    "Sk.Label.C12_transform",
    "Sk.Label.C12_roundtrip",
    "Sk.Label.C12_support_partial",
    "Sk.Label.C12_support_violated"
   ],
   "note": "Classes, codes and round trip proved for all inputs; Support is right only when new labels arrive in increasing order, otherwise wrong (witness)."
  },
  {
   "property": "C120",
   "status": "partial",
   "theorems": [
    "Sk.Enet.C46_fit",
    "Sk.EnetMT.C120_ignored_violated",
    "Sk.EnetMT.C120_negative_violated"
   ],
   "note": "Holds with one output (C46_fit); false with several: Positive is ignored."
  },
  {
   "property": "C121",
   "status": "partial",
   "theorems": [
    "Sk.EnetFit.C121_path_partial",
    "Sk.EnetFit.C121_grid_partial",
    "Sk.EnetFit.C121_given_partial",
    "Sk.EnetFit.C121_dropped_violated",
    "Sk.EnetFit.C121_padded_violated",
    "Sk.EnetFit.C121_null_violated"
   ],
   "note": "Holds per entry; alphas of another length than NAlphas are truncated or padded with 0, and the largest automatic alpha need not give zero coefficients."
  },
  {
   "property": "C122",
   "status": "partial",
   "theorems": [
    "Sk.EnetFit.C122_fit",
    "Sk.EnetFit.C122_no_intercept",
    "Sk.EnetFit.C122_multi",
    "Sk.EnetFit.C122_multi_no_intercept",
    "Sk.EnetFit.C122_positive_violated"
   ],
   "note": "Full for one output and, without Positive, for several; with and without intercept, cold and warm start. With several outputs Positive is not observed, so the coefficients can be negative (violation). With MaxIter 0 see C47, constant columns under Normalize see C48."
  },
  {
   "property": "C123",
   "status": "partial",
   "theorems": [
    "Sk.EnetFit.C123_warm_partial",
    "Sk.EnetFit.C123_new_violated",
    "Sk.EnetFit.C123_normalize_violated"
   ],
   "note": "Holds without Normalize on an estimator already fitted."
  },
  {
   "property": "C124",
   "status": "partial",
   "theorems": [
    "Sk.Logistic.C124_convex_partial",
    "Sk.Logistic.C124_optimal_partial",
    "Sk.Logistic.C124_gradient_partial",
    "Sk.Logistic.C124_multilabel_violated",
    "Sk.Logistic.C124_clamp_violated"
   ],
   "note": "Probabilities inside the clamp and targets summing to 1 per row. Several label columns: the computed gradient is zero nowhere (violation). Where probabilities are clamped the loss is constant and the gradient is not zero (violation)."
  },
  {
   "property": "C125",
   "status": "partial",
   "theorems": [
    "Sk.Logistic.C125_contiguous_partial",
    "Sk.Logistic.C125_view_violated",
    "Sk.Logistic.C125_types_partial",
    "Sk.Logistic.C125_type_violated"
   ],
   "note": "Contiguous targets only. A view of some columns of a wider matrix panics for two rows or more; a dense X with a Y of another type panics."
  },
  {
   "property": "C126",
   "status": "partial",
   "theorems": [
    "Sk.Logistic.C126_predict_partial",
    "Sk.Logistic.C126_refit_violated",
    "Sk.Logistic.C126_two_columns_violated"
   ],
   "note": "New estimators and labels other than 0/1, one label column. After a fit on other labels, a fit on 0/1 labels leaves the old classes: predictions panic or return the old label. With two label columns the second prediction is always 0, or predictions panic."
  },
  {
   "property": "C127",
   "status": "partial",
   "theorems": [
    "Sk.Logistic.C127_book_partial",
    "Sk.Logistic.C127_last_violated",
    "Sk.Logistic.C127_curve_violated"
   ],
   "note": "The parameters kept are those evaluated last, not the best; the loss curve keeps the losses of earlier fits."
  },
  {
   "property": "C128",
   "status": "partial",
   "theorems": [
    "Sk.Datasets.C128_linear_partial",
    "Sk.Datasets.C128_bias_violated",
    "Sk.Datasets.C128_empty"
   ],
   "note": "Biases of a type listed in the switch (or none). A bias of another type (an int, as from the literal 5) is ignored silently."
  },
  {
   "property": "C129",
   "status": "partial",
   "theorems": [
    "Sk.Datasets.C129_centers",
    "Sk.Datasets.C129_rows_partial",
    "Sk.Datasets.C129_shuffle",
    "Sk.Datasets.C129_config",
    "Sk.Datasets.C129_box_violated",
    "Sk.Datasets.C129_schedule_violated",
    "Sk.Datasets.C129_columns_violated",
    "Sk.Datasets.C129_config_violated",
    "Sk.Datasets.C129_drawn"
   ],
   "note": "Which sample gets which label depends on the schedule (and noise and shuffling are not drawn from RandomState); a box with equal or exchanged bounds never terminates; centres with another number of columns panic; defaults are written into the configuration."
  },
  {
   "property": "C13",
   "status": "proved",
   "theorems": [
    "Sk.Label.C13_partialFit_concat"
   ],
   "note": "All batch histories; the wrong Support counts of C12 are the same in both."
  },
  {
   "property": "C130",
   "status": "partial",
   "theorems": [
    "Sk.Datasets.C130_csv",
    "Sk.Datasets.C130_bad_cell",
    "Sk.Datasets.C130_xy",
    "Sk.Datasets.C130_outputs_violated"
   ],
   "note": "One output column, as all exported loaders ask. With several, every output is a copy of the first. Number parsing and the csv and json readers are parameters."
  },
  {
   "property": "C131",
   "status": "partial",
   "theorems": [
    "Sk.Rect.C131_rectangle_partial",
    "Sk.Rect.C131_point_partial",
    "Sk.Rect.C131_order_violated"
   ],
   "note": "Norms 1, 2 and infinity; other orders panic."
  },
  {
   "property": "C132",
   "status": "partial",
   "theorems": [
    "Sk.Rect.C132_volume_partial",
    "Sk.Rect.C132_split_violated",
    "Sk.Rect.C132_volume_violated"
   ],
   "note": "The bounds of the parts are exchanged: neither contains any point, and volumes add up only in even dimensions."
  },
  {
   "property": "C133",
   "status": "partial",
   "theorems": [
    "Sk.G64.C133_swap",
    "Sk.G64.C133_at_partial",
    "Sk.G64.C133_at_violated",
    "Sk.G64.C133_rows_of_view_violated",
    "Sk.G64.C133_rows_partial"
   ],
   "note": "Swap, the fast swap and access inside the matrix are right. A column number equal to the stride reads the next row; row views including the last row panic for views that do not start at the first column."
  },
  {
   "property": "C134",
   "status": "partial",
   "theorems": [
    "Sk.G64.C134_copy_partial",
    "Sk.G64.C134_copy_violated",
    "Sk.G64.C134_sumRows_violated",
    "Sk.G64.C134_sumRows_partial",
    "Sk.G64.C134_copy32"
   ],
   "note": "A General64 view is copied as one block, so rows from the second on are wrong; SumRows keeps only the last row."
  },
  {
   "property": "C135",
   "status": "proved",
   "theorems": [
    "Sk.MlpFit.C135_layout"
   ],
   "note": "Gradients use the same loop."
  },
  {
   "property": "C136",
   "status": "partial",
   "theorems": [
    "Sk.MlpFit.C136_validate_partial",
    "Sk.MlpFit.C136_nan_violated",
    "Sk.MlpFit.C136_softmax_violated",
    "Sk.MlpFit.C136_derivative_partial",
    "Sk.Logistic.C136_logistic_partial",
    "Sk.Logistic.C136_logistic_nan_violated"
   ],
   "note": "For numbers the check is exact, except that hidden layers of size 0 are accepted. NaN passes every check; softmax is accepted for hidden layers and then panics."
  },
  {
   "property": "C137",
   "status": "partial",
   "theorems": [
    "Sk.MlpFit.C137_regressor_partial",
    "Sk.MlpFit.C137_binary_violated",
    "Sk.MlpFit.C137_padding_violated",
    "Sk.MlpFit.C137_network"
   ],
   "note": "True when some target is neither 0 nor 1. On 0/1 targets the regressor becomes a classifier and predicts only 0 and 1; memory outside a view of the targets takes part in the decision."
  },
  {
   "property": "C138",
   "status": "partial",
   "theorems": [
    "Sk.MlpFit.C138_predict_partial",
    "Sk.MlpFit.C138_refit_violated",
    "Sk.MlpFit.C138_onehot_partial",
    "Sk.MlpFit.C138_neg_violated",
    "Sk.MlpFit.C138_two_columns_violated"
   ],
   "note": "New estimators, NegLabel 0, one label column. A refit on 0/1 labels keeps the old binarizer (panics or old label); a NegLabel other than 0 is never written; with two label columns the second prediction is always 0, or predicting a sample panics."
  },
  {
   "property": "C139",
   "status": "partial",
   "theorems": [
    "Sk.MlpFit.C139_extra_partial",
    "Sk.MlpFit.C139_missing_violated",
    "Sk.MlpFit.C139_labels_partial",
    "Sk.MlpFit.C139_view_violated"
   ],
   "note": "Missing features are taken as zero without notice. Into a column of a wider matrix labels are written contiguously, over other columns."
  },
  {
   "property": "C14",
   "status": "partial",
   "theorems": [
    "Sk.Label.C14_unknown_partial",
    "Sk.Label.C14_unknown_violated",
    "Sk.Label.C14_inverse_break_violated"
   ],
   "note": "-1 only above the largest class; every other unknown label provably receives the code of the next class."
  },
  {
   "property": "C140",
   "status": "partial",
   "theorems": [
    "Sk.MlpFit.C140_single_layer_partial",
    "Sk.MlpFit.C140_hidden_violated",
    "Sk.MlpFit.C140_regressor_violated",
    "Sk.MlpFit.C140_params_violated",
    "Sk.MlpFit.C140_refuses"
   ],
   "note": "True for classifiers without hidden layers. With hidden layers every prediction panics; regressors predict only 0 and 1; parameters with an underscore in their name are skipped."
  },
  {
   "property": "C141",
   "status": "partial",
   "theorems": [
    "Sk.MlpFit.C141_warm_partial",
    "Sk.MlpFit.C141_warm_violated",
    "Sk.MlpFit.C141_types_partial",
    "Sk.MlpFit.C141_types_violated",
    "Sk.MlpFit.C141_loss_partial",
    "Sk.MlpFit.C141_loss_violated"
   ],
   "note": "WarmStart panics on a new estimator; a dense X with a Y of another type trains on nothing without Shuffle; with early stopping the loss is divided by the number of all rows."
  },
  {
   "property": "C142",
   "status": "partial",
   "theorems": [
    "Sk.Tensor.C142_at_partial",
    "Sk.Tensor.C142_few_violated",
    "Sk.Tensor.C142_backing_violated",
    "Sk.Tensor.C142_iterator_partial",
    "Sk.Tensor.C142_restart_violated",
    "Sk.Tensor.C142_many"
   ],
   "note": "With as many indices as dimensions and a fitting backing. Fewer indices give no error; a short backing panics later; a used iterator does not start again."
  },
  {
   "property": "C143",
   "status": "proved",
   "theorems": [
    "Sk.Tensor.C143_sum",
    "Sk.Tensor.C143_prod",
    "Sk.Tensor.C143_leaf",
    "Sk.Tensor.C143_white"
   ],
   "note": "Justifies the list of slices used as the gradient in C102."
  },
  {
   "property": "C144",
   "status": "partial",
   "theorems": [
    "Sk.Tensor.C144_diff_partial",
    "Sk.Tensor.C144_nan_violated",
    "Sk.Tensor.C144_shape_violated",
    "Sk.Tensor.C144_nil_violated",
    "Sk.Tensor.C144_bounds",
    "Sk.Tensor.C144_free",
    "Sk.Tensor.C144_tensors_partial"
   ],
   "note": "NaN cells and further rows of the second tensor go unnoticed; CloneWithTheta(nil) panics for every kernel."
  },
  {
   "property": "C145",
   "status": "partial",
   "theorems": [
    "Sk.BaseMat.C145_predict",
    "Sk.BaseMat.C145_naive_bayes_partial",
    "Sk.BaseMat.C145_naive_bayes_violated",
    "Sk.BaseMat.C145_nothing_violated"
   ],
   "note": "Proved for the Predict methods; PredictProbas and PredictLogProbas of naive Bayes panic on an empty dense matrix."
  },
  {
   "property": "C146",
   "status": "partial",
   "theorems": [
    "Sk.BaseMat.C146_copy_partial",
    "Sk.BaseMat.C146_set_partial",
    "Sk.BaseMat.C146_stride_violated",
    "Sk.BaseMat.C146_size_violated",
    "Sk.BaseMat.C146_overlap_violated"
   ],
   "note": "Holds for separate memory and equal sizes. A shared first cell suppresses the copy whatever the stride, sizes are not compared, overlapping rows are read after being overwritten."
  },
  {
   "property": "C147",
   "status": "partial",
   "theorems": [
    "Sk.BaseMat.C147_text_partial",
    "Sk.BaseMat.C147_rows_violated",
    "Sk.BaseMat.C147_short_violated",
    "Sk.BaseMat.C147_dims_partial",
    "Sk.BaseMat.C147_operator_violated"
   ],
   "note": "Further rows of later matrices are dropped, missing ones panic; unknown operators are accepted."
  },
  {
   "property": "C148",
   "status": "partial",
   "theorems": [
    "Sk.PrepHelpers.C148_dense_mean_partial",
    "Sk.PrepHelpers.C148_dense_mean_violated",
    "Sk.PrepHelpers.C148_dummy",
    "Sk.PrepHelpers.C148_mean_partial",
    "Sk.PrepHelpers.C148_std_violated",
    "Sk.PrepHelpers.C148_population_violated",
    "Sk.PrepHelpers.C148_normalizer_inverse_violated"
   ],
   "note": "Old contents of the matrix given to DenseMean are added; deviations are scaled by the number of columns; the inverse of the normalizer always panics."
  },
  {
   "property": "C149",
   "status": "partial",
   "theorems": [
    "Sk.Source.C149_linearizable_partial",
    "Sk.Source.C149_progress",
    "Sk.Source.C149_clone_violated",
    "Sk.Source.C149_panic_violated"
   ],
   "note": "SourceClone does not take the lock and can copy a half-updated state; a panic inside WithLock leaves the source locked for ever."
  },
  {
   "property": "C15",
   "status": "partial",
   "theorems": [
    "Sk.Label.C15_onehot_partial",
    "Sk.Label.C15_neglabel_violated",
    "Sk.Label.C15_roundtrip_partial",
    "Sk.Label.C15_two_columns_violated",
    "Sk.Label.C15_poslabel_violated",
    "Sk.Label.C15_labels_differ"
   ],
   "note": "Round trip for one output column and positive PosLabel; false for two columns; NegLabel never written."
  },
  {
   "property": "C150",
   "status": "proved",
   "theorems": [
    "Sk.PrepHelpers.C150_derivative",
    "Sk.PrepHelpers.C150_relu_kink",
    "Sk.PrepHelpers.C150_range"
   ],
   "note": "relu has no derivative at 0, where Fprime gives the derivative from the left."
  },
  {
   "property": "C151",
   "status": "partial",
   "theorems": [
    "Sk.TransClone.C151_fit_partial",
    "Sk.TransClone.C151_unfitted_partial",
    "Sk.TransClone.C151_scalers_partial",
    "Sk.TransClone.C151_minmax_violated",
    "Sk.TransClone.C151_maxabs_violated",
    "Sk.TransClone.C151_std_violated",
    "Sk.TransClone.C151_robust_violated"
   ],
   "note": "Holds for programs with Fit only (min-max, standard, max-abs) and for any calls when only unfitted objects are cloned. Violated: PartialFit on a clone of a fitted min-max, max-abs or standard scaler changes the original; Fit on a clone of a fitted robust scaler does."
  },
  {
   "property": "C152",
   "status": "partial",
   "theorems": [
    "Sk.Scores.C152_accuracy",
    "Sk.Scores.C152_classifier",
    "Sk.Scores.C152_r2_partial",
    "Sk.Scores.C152_regressor_partial",
    "Sk.Scores.C152_base_partial",
    "Sk.Scores.C152_validation_partial",
    "Sk.Scores.C152_view_violated",
    "Sk.Scores.C152_constant_violated",
    "Sk.Scores.C152_early_violated",
    "Sk.Scores.C152_gp_violated"
   ],
   "note": "Accuracy is proved for every layout; R2 for targets without gaps. Violations: targets in a view panic (predictions are read with the stride of the targets), a constant target column panics, EarlyStopping with a column of labels panics in the first epoch, the Gaussian process Score refits on the data it scores and then panics."
  },
  {
   "property": "C153",
   "status": "partial",
   "theorems": [
    "Sk.Views.C153_bounded",
    "Sk.Views.C153_set",
    "Sk.Views.C153_transpose",
    "Sk.Views.C153_rowslice_partial",
    "Sk.Views.C153_rowslice_set_partial",
    "Sk.Views.C153_rowslice_end_violated",
    "Sk.Views.C153_rowslice_set_violated",
    "Sk.Views.C153_ones_violated",
    "Sk.Views.C153_const_violated"
   ],
   "note": "Transposes proved. Violations: MatRowSlice.At accepts the row after its end; MatRowSlice.Set subtracts Start instead of adding it (panics or writes another row); MatOnesPrepended adds no column; MatConst has no bounds."
  },
  {
   "property": "C154",
   "status": "partial",
   "theorems": [
    "Sk.Views.C154_slice",
    "Sk.Views.C154_cols",
    "Sk.Views.C154_rows_partial",
    "Sk.Views.C154_rows_but_last",
    "Sk.Views.C154_rows_violated",
    "Sk.Views.C154_bounds_violated",
    "Sk.Views.C154_order_violated"
   ],
   "note": "Inside of the matrix proved for MatDenseSlice and MatDenseColSlice for every view; row slices up to the last row of a view panic; slices beyond the columns of a view and with columns in the wrong order are accepted."
  },
  {
   "property": "C155",
   "status": "partial",
   "theorems": [
    "Sk.Params.C155_set",
    "Sk.Params.C155_get",
    "Sk.Params.C155_order_partial",
    "Sk.Params.C155_case_violated",
    "Sk.Params.C155_read"
   ],
   "note": "Setting and reading proved exactly; order independence proved for names that differ in more than case; a grid with two spellings of one name is order dependent."
  },
  {
   "property": "C156",
   "status": "partial",
   "theorems": [
    "Sk.NeighState.C156_regressor_partial",
    "Sk.NeighState.C156_classifier_partial",
    "Sk.NeighState.C156_classifier_brute",
    "Sk.NeighState.C156_regressor_brute",
    "Sk.NeighState.C156_stale_violated",
    "Sk.NeighState.C156_targets_violated",
    "Sk.NeighState.C156_power_violated",
    "Sk.NeighState.C156_clone_violated",
    "Sk.NeighState.C156_centroid_nil_violated",
    "Sk.NeighState.C156_choice",
    "Sk.NeighState.C156_setP_violated"
   ],
   "note": "Proved when the last Fit builds a tree or none before did, when the power was not overwritten by an earlier Fit with a named metric and, for the classifier, when the targets are not overwritten later. In general false: a tree built by an earlier Fit stays in use after a Fit on small data; the classifier reads the caller's targets; Fit overwrites P; PredicterClone and IsClassifier of KNeighborsClassifier and NearestCentroid, and NearestCentroid.Predict without destination, panic."
  },
  {
   "property": "C157",
   "status": "partial",
   "theorems": [
    "Sk.NBClone.C157_untrained_partial",
    "Sk.NBClone.C157_predict_partial",
    "Sk.NBClone.C157_fit_violated",
    "Sk.NBClone.C157_partial_fit_violated",
    "Sk.NBClone.C157_follows_violated",
    "Sk.NBClone.C157_follows_panic_violated"
   ],
   "note": "Proved for programs that clone estimators before training them. For clones of trained estimators it is false: Fit of the clone panics, PartialFit of the clone changes the statistics of the original, and the clone predicts through a closure that reads the fields of the original, so it follows the original when that is trained anew, and panics if there are more classes then."
  },
  {
   "property": "C158",
   "status": "partial",
   "theorems": [
    "Sk.SvmState.C158_objects_partial",
    "Sk.SvmState.C158_support",
    "Sk.SvmState.C158_kernels",
    "Sk.SvmState.C158_gamma_violated",
    "Sk.SvmState.C158_gamma"
   ],
   "note": "Proved for programs that refit estimators without a positive gamma only on data with the same number of features. In general false: Fit stores the default gamma, so a refit on data with another number of features uses the gamma of the first."
  },
  {
   "property": "C159",
   "status": "partial",
   "theorems": [
    "Sk.TransClone.C159_alloc",
    "Sk.TransClone.C159_encoder_partial",
    "Sk.TransClone.C159_encoder_violated",
    "Sk.TransClone.C159_pca_partial",
    "Sk.TransClone.C159_pca_violated",
    "Sk.TransClone.C159_binarizer_fit",
    "Sk.TransClone.C159_fit"
   ],
   "note": "Full for the seven transformers whose Fit makes new slices; violated for LabelEncoder.PartialFit on a clone and for refitting a clone of a fitted PCA (the latter assumes that gonum's SVD reuses its storage)."
  },
  {
   "property": "C16",
   "status": "proved",
   "theorems": [
    "Sk.Scale.C16_minmax_range",
    "Sk.Scale.C16_minmax_inverse"
   ],
   "note": "Any linearly ordered field; per column."
  },
  {
   "property": "C160",
   "status": "partial",
   "theorems": [
    "Sk.MlpOpt.C160_answers",
    "Sk.MlpOpt.C160_final",
    "Sk.MlpOpt.C160_gradient_partial",
    "Sk.MlpOpt.C160_result_violated",
    "Sk.MlpOpt.C160_stale_violated",
    "Sk.MlpOpt.C160_decay_violated",
    "Sk.MlpOpt.C160_curve_violated"
   ],
   "note": "Answers and bookkeeping proved for every call sequence; gradient correctness without weight decay, for identity, logistic and relu where differentiable; the result of the minimiser is never copied back, stale gradients, weight decay and refits violate the statement."
  },
  {
   "property": "C161",
   "status": "partial",
   "theorems": [
    "Sk.MlpOpt.C161_normalize",
    "Sk.MlpOpt.C161_output",
    "Sk.MlpOpt.C161_unit_partial",
    "Sk.MlpOpt.C161_gradient_violated",
    "Sk.MlpOpt.C161_dead_violated",
    "Sk.MlpOpt.C161_two_layers_partial",
    "Sk.MlpOpt.C161_dead_second_violated"
   ],
   "note": "Normalisation and output proved; gradients only for columns with maximum 1; violated otherwise (one hidden layer) and for inactive units (any depth)."
  },
  {
   "property": "C162",
   "status": "partial",
   "theorems": [
    "Sk.PowerFit.C162_yeoJohnson_partial",
    "Sk.PowerFit.C162_order_partial",
    "Sk.PowerFit.C162_boxCox",
    "Sk.PowerFit.C162_zero_violated"
   ],
   "note": "Proved except for lambda 0 with Yeo-Johnson, where the objective is NaN (violation). The minimiser itself is outside the repository."
  },
  {
   "property": "C163",
   "status": "partial",
   "theorems": [
    "Sk.PowerFit.C163_fitTransform",
    "Sk.PowerFit.C163_cells_partial",
    "Sk.PowerFit.C163_unchanged_partial",
    "Sk.PowerFit.C163_clone",
    "Sk.PowerFit.C163_nan_violated",
    "Sk.PowerFit.C163_twice_violated",
    "Sk.PowerFit.C163_stale_violated",
    "Sk.PowerFit.C163_switch_violated",
    "Sk.PowerFit.C163_clone_fit"
   ],
   "note": "FitTransform and clones in full; the rest for numbers and for matrices that do not share memory; four violations."
  },
  {
   "property": "C164",
   "status": "partial",
   "theorems": [
    "Sk.LogClone.C164_unfitted_partial",
    "Sk.LogClone.C164_cold_partial",
    "Sk.LogClone.C164_warm_violated",
    "Sk.LogClone.C164_curve_violated",
    "Sk.LogClone.C164_source_violated",
    "Sk.LogClone.C164_default_source_violated"
   ],
   "note": "Full for clones of unfitted perceptrons with cloned sources; everything but the curve elements without WarmStart; three violations, each for every program."
  },
  {
   "property": "C165",
   "status": "partial",
   "theorems": [
    "Sk.LogClone.C165_labels_partial",
    "Sk.LogClone.C165_core_partial",
    "Sk.LogClone.C165_core_violated",
    "Sk.LogClone.C165_witness_violated",
    "Sk.LogClone.C165_kmeans",
    "Sk.LogClone.dbscan_fit_appends",
    "Sk.LogClone.C165_fit",
    "Sk.LogClone.C165_kmeans_fit"
   ],
   "note": "Labels and KMeans in full; core sample indices only for clones of unfitted objects (violated otherwise, general formula and witness)."
  },
  {
   "property": "C166",
   "status": "partial",
   "theorems": [
    "Sk.SearchObj.C166_isolated",
    "Sk.SearchObj.C166_clone",
    "Sk.SearchObj.C166_fit_partial",
    "Sk.SearchObj.C166_refit_partial",
    "Sk.SearchObj.C166_unpaired_violated",
    "Sk.SearchObj.C166_stale_violated",
    "Sk.SearchObj.C166_unfitted",
    "Sk.SearchObj.C166_draws"
   ],
   "note": "Full for clonable and default sources; violated for other sources and after a fit with an empty grid. Candidates run one after the other in the model (with clonable sources they share nothing)."
  },
  {
   "property": "C167",
   "status": "partial",
   "theorems": [
    "Sk.PipeObj.C167_clone",
    "Sk.PipeObj.C167_isolated",
    "Sk.PipeObj.C167_clone_fit",
    "Sk.PipeObj.C167_clone_panics",
    "Sk.PipeObj.C167_fit_partial",
    "Sk.PipeObj.C167_predict",
    "Sk.PipeObj.C167_kind",
    "Sk.PipeObj.C167_transform",
    "Sk.PipeObj.C167_twice_violated",
    "Sk.PipeObj.C167_shared_violated",
    "Sk.PipeObj.C167_make"
   ],
   "note": "Clones: full. Fit: full for different steps; violated for a step held twice and for pipelines sharing a slice."
  },
  {
   "property": "C168",
   "status": "partial",
   "theorems": [
    "Sk.PipeObj.C168_predict_partial",
    "Sk.PipeObj.C168_blocked_violated",
    "Sk.PipeObj.C168_labels"
   ],
   "note": "Full for the six transformers that leave the targets alone; violated for the eleven that cannot be inverted without X."
  },
  {
   "property": "C169",
   "status": "partial",
   "theorems": [
    "Sk.Metrics.C169_one_partial",
    "Sk.Metrics.C169_all_columns",
    "Sk.Metrics.C169_total",
    "Sk.Metrics.C169_columns_violated",
    "Sk.Metrics.C169_panic_violated"
   ],
   "note": "Full for one column; violated for two or more. C169_all_columns says what is returned instead."
  },
  {
   "property": "C17",
   "status": "proved",
   "theorems": [
    "Sk.Scale.C17_minmax_incremental"
   ],
   "note": "Equality of the complete scaler state."
  },
  {
   "property": "C170",
   "status": "partial",
   "theorems": [
    "Sk.GP.C170_clone_partial",
    "Sk.GP.C170_isolated",
    "Sk.GP.C170_calls",
    "Sk.GP.C170_alpha_violated",
    "Sk.GP.C170_exponent_violated",
    "Sk.GP.C170_fixed_operand_violated"
   ],
   "note": "Full for kernels that copy with their own theta, with the effect of every call; three violations."
  },
  {
   "property": "C171",
   "status": "partial",
   "theorems": [
    "Sk.Metrics.C171_regressors_partial",
    "Sk.Metrics.C171_linear",
    "Sk.Metrics.C171_mean",
    "Sk.Metrics.C171_unit_violated",
    "Sk.Metrics.C171_classifiers_partial",
    "Sk.Metrics.C171_missing_violated",
    "Sk.Metrics.C171_surplus_violated",
    "Sk.Metrics.C171_shapes_violated"
   ],
   "note": "False: the unit of the targets matters as soon as a column has a sum of squares under 1e-20 (the denominator is then replaced by 1e-20). KNeighborsClassifier and NearestCentroid accept fewer samples than targets and count the missing predictions as labels 0; SVC, GaussianNB and LogisticRegression accept more samples than targets and fewer target columns than outputs and ignore the rest. The shapes are hypotheses of the two partial theorems."
  },
  {
   "property": "C172",
   "status": "partial",
   "theorems": [
    "Sk.Svm.C172_svc_partial",
    "Sk.Svm.C172_svc_training",
    "Sk.Svm.C172_svr_partial",
    "Sk.Svm.C172_svr_training",
    "Sk.Svm.C172_stuck_violated",
    "Sk.Svm.C172_svr_rest",
    "Sk.Svm.C172_svc_rest",
    "Sk.Svm.C172_small_targets_violated",
    "Sk.Svm.C172_duplicates_violated"
   ],
   "note": "The conditions hold unless training ends by MaxIter passes without change. That case is real: SVC accepts only steps that raise the second multiplier (a missing absolute value), and three samples are given for which training never meets the conditions; SVR divides by +0 for two rows with the same features, moves their multipliers the wrong way and ends there; SVR on targets all within Epsilon of zero panics."
  },
  {
   "property": "C173",
   "status": "partial",
   "theorems": [
    "Sk.Lin.C173_columns",
    "Sk.Lin.C173_order",
    "Sk.Lin.C173_used_alpha",
    "Sk.Lin.C173_ridge_partial",
    "Sk.Lin.C173_no_intercept",
    "Sk.Lin.C173_alpha_violated",
    "Sk.Lin.C173_report_violated",
    "Sk.Lin.C173_by_value"
   ],
   "note": "Columns and order for every minimiser. The minimum holds for Alpha 0 and 1, with and without intercept; for every other positive Alpha the gradient given to the minimiser lacks the factor Alpha, so its zero is the solution for Alpha=1 and not the one asked for, on every data set with a correlated output. Converged is always true (shadowed err) and J always 0. For a minimiser that goes by values alone the claim holds for every Alpha \u2265 0 (C173_by_value)."
  },
  {
   "property": "C174",
   "status": "partial",
   "theorems": [
    "Sk.Svm.C174_terminates_partial",
    "Sk.Svm.C174_cycle_violated"
   ],
   "note": "With Epsilon=0 training ends for every data set, separating symmetric kernel, C>=0, Tol>0, number of passes and draws. With a positive Epsilon it need not: with the default settings C=1, Epsilon=0.1, Tol=0.001, the linear kernel and the samples (1,0), (-1,3/2), (0,1), the multipliers run through a cycle of four rounds for ever when the draws of every round are 0,0,1. Exact arithmetic; the draws of the violation are chosen, no data set is known that hangs for all draws."
  },
  {
   "property": "C175",
   "status": "partial",
   "theorems": [
    "Sk.Lin.C175_columns",
    "Sk.Lin.C175_least_squares",
    "Sk.Lin.C175_no_intercept",
    "Sk.Lin.C175_cost_partial",
    "Sk.Lin.C175_alpha_violated"
   ],
   "note": "Proved for Alpha = 0. For every Alpha > 0 the given gradient vanishes exactly where the gradient of the plain sum of squares does, so the fit is ordinary least squares whatever Alpha is (C175_least_squares), and for every output correlated with a feature it is not a minimiser of the penalised cost (C175_alpha_violated)."
  },
  {
   "property": "C176",
   "status": "partial",
   "theorems": [
    "Sk.NOut.C176_reported_partial",
    "Sk.NOut.C176_crossval_partial",
    "Sk.NOut.C176_pipeline",
    "Sk.NOut.C176_stale_violated",
    "Sk.NOut.C176_literal_violated",
    "Sk.NOut.C176_crossval_violated",
    "Sk.NOut.C176_default_violated",
    "Sk.NOut.C176_pipeline_violated",
    "Sk.NOut.C176_unfitted",
    "Sk.NOut.C176_unfitted_cases"
   ],
   "note": "True for new and refitted estimators except: networks and logistic regressions keep the column count of an earlier fit on labels when refitted on 0/1 targets; a GaussianNB struct literal reports 0 and cannot be cross-validated; KNeighborsClassifier and NearestCentroid cannot be cloned, so CrossValidate always panics; a nil splitter panics before the default is set; a pipeline that encodes its targets reports the encoded number of columns."
  },
  {
   "property": "C177",
   "status": "partial",
   "theorems": [
    "Sk.Encode.C177_first_row",
    "Sk.Encode.C177_missing_violated",
    "Sk.Encode.C177_exchange_partial"
   ],
   "note": "Every exchange of two rows can come out, so each row can reach each place; with three or more rows, all different, some arrangements never come out: if row k ends up first, the former first row ends at place k or below."
  },
  {
   "property": "C178",
   "status": "partial",
   "theorems": [
    "Sk.Lin.C178_joint_partial",
    "Sk.Lin.C178_gradient",
    "Sk.Lin.C178_lasso_violated",
    "Sk.Lin.C178_rmse_violated",
    "Sk.Lin.C178_loss_violated"
   ],
   "note": "L1Ratio 0: cost and gradient decouple by output, and Converged is right. With a positive L1Ratio the joint gradient differs from the separate ones wherever two outputs share a feature. RMSE is divided by the number of outputs only: right only for exact fits or as many samples as outputs. J is always 0 (C178_loss_violated)."
  },
  {
   "property": "C179",
   "status": "proved",
   "theorems": [
    "Sk.Mlp.C179_log_loss",
    "Sk.Mlp.C179_binary_log_loss",
    "Sk.Mlp.C179_bounded",
    "Sk.Mlp.C179_monotone",
    "Sk.Mlp.C179_logistic"
   ],
   "note": "Exact logarithms; the clamping bounds are parameters."
  },
  {
   "property": "C18",
   "status": "proved",
   "theorems": [
    "Sk.Scale.C18_fit_stats",
    "Sk.Scale.C18_standard_moments",
    "Sk.Scale.C18_standard_inverse"
   ],
   "note": "Over the reals with the real square root; all flags."
  },
  {
   "property": "C180",
   "status": "partial",
   "theorems": [
    "Sk.MlpDeliver.C180_base_partial",
    "Sk.MlpDeliver.C180_regressor",
    "Sk.MlpDeliver.C180_classifier_partial",
    "Sk.MlpDeliver.C180_mutable_violated",
    "Sk.MlpDeliver.C180_labels_violated",
    "Sk.MlpDeliver.C180_classifier_violated",
    "Sk.MlpDeliver.C180_base_nil"
   ],
   "note": "Regressor in full; classifier and base without the violations: labels into a view for raw data, a destination without raw access for raw data."
  },
  {
   "property": "C181",
   "status": "partial",
   "theorems": [
    "Sk.Label.C181_roundtrip_partial",
    "Sk.Label.C181_interface_violated",
    "Sk.Label.C181_unknown_violated",
    "Sk.Label.C181_mixed_violated",
    "Sk.Label.C181_other",
    "Sk.Label.C181_empty",
    "Sk.Label.C181_fit_transform_partial"
   ],
   "note": "Round trip for *mat.Dense and [][]string; violated for other matrices (nil result), unseen labels (decoded as the smallest label) and mixed types (panic)."
  },
  {
   "property": "C182",
   "status": "partial",
   "theorems": [
    "Sk.LinFit.C182_sum",
    "Sk.LinFit.C182_gradient",
    "Sk.LinFit.C182_sum_partial",
    "Sk.LinFit.C182_full_batch_partial",
    "Sk.LinFit.C182_result_partial",
    "Sk.LinFit.C182_default_size",
    "Sk.LinFit.C182_penalty_violated",
    "Sk.LinFit.C182_scale_violated",
    "Sk.LinFit.C182_panics_violated",
    "Sk.LinFit.C182_rmse_violated",
    "Sk.LinFit.C182_tolerance_violated",
    "Sk.LinFit.C182_no_epoch_violated"
   ],
   "note": "Gradients of an epoch add up without penalty; best loss and parameters returned. Violated: penalty counted once per batch, gradients scaled by batch/n, panic for all other losses and activations with batches smaller than the data, RMSE and Converged of the last epoch, tolerance compared with the root of the error, no epoch for more than 10^6 rows."
  },
  {
   "property": "C183",
   "status": "partial",
   "theorems": [
    "Sk.LinFit.C183_route",
    "Sk.LinFit.C183_again_partial",
    "Sk.LinFit.C183_sticky_method_violated",
    "Sk.LinFit.C183_sticky_epochs_violated"
   ],
   "note": "Decision table proved; same choice again when Epochs is set. Violated: a call without method and solver stores LBFGS in the options, so that a solver set later is ignored; the default number of epochs of the first data is kept."
  },
  {
   "property": "C184",
   "status": "partial",
   "theorems": [
    "Sk.OptNames.C184_names",
    "Sk.OptNames.C184_defaults",
    "Sk.OptNames.C184_method_partial",
    "Sk.OptNames.C184_setTheta_partial",
    "Sk.OptNames.C184_method_violated",
    "Sk.OptNames.C184_momentum_violated",
    "Sk.OptNames.C184_step_violated"
   ],
   "note": "Names and settings proved; gonum's own methods are the ones named; SetTheta before any update. Violated: the methods sgd, adagrad, rmsprop, adadelta and adam all run plain gradient descent whatever their settings; SetTheta after updates keeps momentum and the shrunken step size."
  },
  {
   "property": "C185",
   "status": "partial",
   "theorems": [
    "Sk.Interp.C185_unchanged",
    "Sk.Interp.C185_unsorted_partial",
    "Sk.Interp.C185_interp1d_violated",
    "Sk.Interp.C185_spline_violated",
    "Sk.Interp.C185_two_points_violated"
   ],
   "note": "Proved for abscissae that are not sorted, and for Interp2d always. Violated for increasing abscissae: the slices are shared, so a later write shows in the values, for splines together with the old slopes (a mixture that is not the spline of any of the two data sets)."
  },
  {
   "property": "C186",
   "status": "partial",
   "theorems": [
    "Sk.CrossVal.C186_no_leak",
    "Sk.CrossVal.C186_when",
    "Sk.CrossVal.C186_retained_violated"
   ],
   "note": "No leak and the exact range of splits proved. Violated: the matrices given to Fit are views of a buffer reused by the job, so with one job every returned estimator that keeps a reference (KNeighborsClassifier keeps its targets) sees the rows of the last split."
  },
  {
   "property": "C187",
   "status": "partial",
   "theorems": [
    "Sk.Init.C187_values",
    "Sk.Init.C187_range_partial",
    "Sk.Init.C187_sign_violated",
    "Sk.Init.C187_linear_violated",
    "Sk.Init.C187_logistic"
   ],
   "note": "Each cell gets its own draw and the bound of its layer; alignment of parameters and gradients proved. Violated: the draws are not centred, so no parameter is ever negative and a fresh relu network is affine on samples without negative features."
  },
  {
   "property": "C188",
   "status": "partial",
   "theorems": [
    "Sk.Repeat.C188_accuracy",
    "Sk.Repeat.C188_confusion",
    "Sk.Repeat.C188_prf",
    "Sk.Repeat.C188_curves",
    "Sk.Repeat.C188_rank_scores",
    "Sk.Repeat.C188_r2",
    "Sk.Repeat.C188_naive_bayes",
    "Sk.Repeat.C188_mean_error_violated"
   ],
   "note": "Proved for all listed functions except the two mean errors, which read only the first weight (refuted for every weight k >= 2). Support values of PrecisionRecallFScoreSupport are excluded (C12), ROCAUCScore and AveragePrecisionScore are covered for one label column."
  },
  {
   "property": "C189",
   "status": "partial",
   "theorems": [
    "Sk.RowOrder.C189_minmax",
    "Sk.RowOrder.C189_standard",
    "Sk.RowOrder.C189_maxabs",
    "Sk.RowOrder.C189_robust",
    "Sk.RowOrder.C189_encoders",
    "Sk.RowOrder.C189_imputer",
    "Sk.RowOrder.C189_kbins_uniform",
    "Sk.RowOrder.C189_kbins_quantile_violated",
    "Sk.RowOrder.C189_quantile_violated",
    "Sk.RowOrder.C189_support_violated"
   ],
   "note": "Proved for all but three: the quantile strategy of KBinsDiscretizer (some orders panic), QuantileTransformer (never sorts, the first row becomes the smallest quantile) and the Support of LabelEncoder, each refuted for general data."
  },
  {
   "property": "C19",
   "status": "partial",
   "theorems": [
    "Sk.Scale.C19_mean_partial",
    "Sk.Scale.C19_variance_violated",
    "Sk.Scale.C19_features_violated",
    "Sk.Scale.C19_batches_partial"
   ],
   "note": "Mean right; variance off by exactly 4*sum*sum/N^2; several features panic on the second batch."
  },
  {
   "property": "C190",
   "status": "proved",
   "theorems": [
    "Sk.Ranks.C190_scores",
    "Sk.Ranks.C190_label_encoder",
    "Sk.Ranks.C190_confusion",
    "Sk.Ranks.C190_accuracy"
   ],
   "note": "The first threshold of ROCCurve is an extra value (largest score plus one) and is excluded."
  },
  {
   "property": "C191",
   "status": "proved",
   "theorems": [
    "Sk.Units.C191_minmax",
    "Sk.Units.C191_standard",
    "Sk.Units.C191_maxabs",
    "Sk.Units.C191_robust",
    "Sk.Units.C191_kbins"
   ],
   "note": "RobustScaler: first fit, columns whose two quantiles differ; MaxAbsScaler: columns with a nonzero cell."
  },
  {
   "property": "C192",
   "status": "partial",
   "theorems": [
    "Sk.Dual.C192_auc",
    "Sk.Dual.C192_accuracy",
    "Sk.Dual.C192_confusion_partial",
    "Sk.Dual.C192_precision_recall_partial",
    "Sk.Dual.C192_roles_violated",
    "Sk.Dual.C192_errors",
    "Sk.Dual.C192_losses",
    "Sk.Dual.C192_error_bounds",
    "Sk.Dual.C192_triangle"
   ],
   "note": "Confusion matrix, precision and recall need the same labels on both sides; otherwise the exchanged call panics (proved for every constant prediction below some true label). The errors are unweighted (see C31 for weights)."
  },
  {
   "property": "C193",
   "status": "proved",
   "theorems": [
    "Sk.Chain.C193_affine",
    "Sk.Chain.C193_last_minmax",
    "Sk.Chain.C193_last_standard",
    "Sk.Chain.C193_last_robust",
    "Sk.Chain.C193_twice"
   ],
   "note": "RobustScaler on a first fit (later fits: C66), quantiles in increasing order; as the last scaler it needs two different quantiles, since equal ones are replaced by a divider of 1. Over the reals."
  },
  {
   "property": "C194",
   "status": "partial",
   "theorems": [
    "Sk.KnnInv.C194_invariant",
    "Sk.KnnInv.C194_move",
    "Sk.KnnInv.C194_self",
    "Sk.KnnInv.C194_all",
    "Sk.KnnInv.C194_ties_violated",
    "Sk.KnnInv.C194_unit_violated"
   ],
   "note": "Violated with ties: two training samples at the same distance with different targets are told apart by their row numbers only (for every sort). Violated for another unit with distance weights, since a constant is added to the distances. Everything else is proved, also for one feature (where the distance is not a norm, C43) and for ties between samples with the same target. Search without tree (the tree returns nearest samples too, C41)."
  },
  {
   "property": "C195",
   "status": "proved",
   "theorems": [
    "Sk.NB.C195_invariant"
   ],
   "note": "First fit of an estimator (a second Fit panics, C86), no given priors. Over the reals: with rounding, shifts and units can move ties."
  },
  {
   "property": "C196",
   "status": "partial",
   "theorems": [
    "Sk.Dbscan.C196_dbscan_determined",
    "Sk.Dbscan.C196_dbscan_move",
    "Sk.Dbscan.C196_dbscan_rows_partial",
    "Sk.Dbscan.C196_dbscan_border_violated",
    "Sk.KMeans.C196_kmeans_partial",
    "Sk.KMeans.C196_kmeans_origin_violated",
    "Sk.KMeans.C196_kmeans_rows_violated"
   ],
   "note": "A border sample of two clusters goes to the one whose core sample is listed first, so the clusters do depend on the row order (violated). KMeans starts from the first samples, so row order matters (violated), and the centroid of a cluster without samples becomes the origin, so shifts are kept only if no round empties a cluster (violated otherwise). Over the reals: rounding can move ties and samples at the radius."
  },
  {
   "property": "C197",
   "status": "proved",
   "theorems": [
    "Sk.Lin.C197_best",
    "Sk.Lin.C197_exact",
    "Sk.Lin.C197_equivariant",
    "Sk.Lin.C197_score",
    "Sk.Lin.C197_few_samples"
   ],
   "note": "gonum's Dense.Solve is a parameter, assumed only to solve least squares problems with independent columns. C197_few_samples: with at most as many samples as features the centred problem has dependent columns and dependent rows, so nothing is claimed there (the code discards the error returned by Solve). One output; over the reals."
  },
  {
   "property": "C198",
   "status": "partial",
   "theorems": [
    "Sk.Label.C198_encoder_width",
    "Sk.Label.C198_binarizer_width",
    "Sk.Label.C198_binarizer_unknown",
    "Sk.Label.C198_unknown_violated",
    "Sk.Label.C198_multi_inverse",
    "Sk.MlpFit.C198_network_unknown"
   ],
   "note": "The last sentence is false: unknown labels get NegLabel in the cell of the least fitted label and come back as that label (violated); for LabelEncoder see C14."
  },
  {
   "property": "C199",
   "status": "proved",
   "theorems": [
    "Sk.EnetFit.C199_agree",
    "Sk.EnetFit.C199_zero_gap"
   ],
   "note": "Consequence of the optimality certificate of C122."
  },
  {
   "property": "C20",
   "status": "proved",
   "theorems": [
    "Sk.Poly.C20_powers",
    "Sk.Poly.C20_transform",
    "Sk.Poly.C20_inverse"
   ],
   "note": "Exponent vectors enumerated exactly once for every n, degree and flags; transform evaluates monomials (C20_transform holds for any power list); inverse recovers the row."
  },
  {
   "property": "C200",
   "status": "partial",
   "theorems": [
    "Sk.Bayes.C200_predictions",
    "Sk.Bayes.C200_decomposition",
    "Sk.Bayes.C200_std_violated"
   ],
   "note": "The last clause is false: Predict2 reads row 0 of Sigma only, so for all data with two or more features exchanging the first two changes the result for some row (violated)."
  },
  {
   "property": "C201",
   "status": "partial",
   "theorems": [
    "Sk.Svm.C201_exchange",
    "Sk.Svm.C201_boundary_violated",
    "Sk.Svm.C201_zero_one_violated",
    "Sk.Svm.C201_reflect_partial",
    "Sk.Svm.C201_reflect_violated",
    "Sk.Svm.C201_move"
   ],
   "note": "Exchange holds for every row off the boundary; a row with decision value 0 is class 1 for both (violated). With the labels 0 and 1 that Predict returns all multipliers stay 0 and Fit panics when training ends, after MaxIter rounds (violated, general). Reflection holds for two samples (partial) and fails for three: targets 0, 1, 2 give the line x, targets 0, -1, -2 the line -9/10 x - 1/10 (violated)."
  },
  {
   "property": "C202",
   "status": "partial",
   "theorems": [
    "Sk.Logistic.C202_unique",
    "Sk.Logistic.C202_moved",
    "Sk.Logistic.C202_copies",
    "Sk.Logistic.C202_exchange",
    "Sk.Logistic.C202_names_violated"
   ],
   "note": "The last clause is false: labels 0 and 1 are fitted with one output, labels with other names with two penalised outputs, so unless the coefficients are zero the probabilities differ (violated, for all data)."
  },
  {
   "property": "C203",
   "status": "proved",
   "theorems": [
    "Sk.Pca.C203_moved"
   ],
   "note": "Centring is not among the moves: see C117 for the dependence on the origin."
  },
  {
   "property": "C204",
   "status": "proved",
   "theorems": [
    "Sk.Interp.C204_interp1d_units",
    "Sk.Interp.C204_interp1d_sum",
    "Sk.Interp.C204_interp1d_line",
    "Sk.Interp.C204_interp1d_monotone",
    "Sk.Interp.C204_spline_units",
    "Sk.Interp.C204_spline_sum",
    "Sk.Interp.C204_spline_line",
    "Sk.Interp.C204_spline_overshoot"
   ],
   "note": "gonum's solver is assumed to solve the tridiagonal system (it has exactly one solution, C58_system); rounding is not modelled."
  },
  {
   "property": "C205",
   "status": "partial",
   "theorems": [
    "Sk.GP.C205_rows",
    "Sk.GP.C205_translate_partial",
    "Sk.GP.C205_white_violated",
    "Sk.GP.C205_features",
    "Sk.GP.C205_operands",
    "Sk.GP.C205_outputs"
   ],
   "note": "Translation fails for noise kernels, whose equality of rows is relative to their size (C205_white_violated). Exchanging operands panics when one has no free hyperparameters (C103_fixed_operand_violated). gonum's Cholesky factor and solutions are assumed correct."
  },
  {
   "property": "C206",
   "status": "proved",
   "theorems": [
    "Sk.RawLoops.C206_column",
    "Sk.RawLoops.C206_standard",
    "Sk.RawLoops.C206_imputer",
    "Sk.RawLoops.C206_max_abs",
    "Sk.RawLoops.C206_label_encoder",
    "Sk.RawLoops.C206_unfitted",
    "Sk.RawLoops.C206_views",
    "Sk.RawLoops.C206_views_imputer",
    "Sk.RawLoops.C206_label_decoder",
    "Sk.RawLoops.C206_polynomial",
    "Sk.RawLoops.C206_kernel_centerer",
    "Sk.RawLoops.C206_max_abs_fit",
    "Sk.RawLoops.C206_label_binarizer",
    "Sk.RawLoops.C206_wider",
    "Sk.RawLoops.C206_narrower"
   ],
   "note": "The Binarizer and Shuffler.InverseTransform, which use the wrong stride, are the subject of C69 and C22. Rounding not modelled; goroutines over columns run in sequence (C01, C02)."
  },
  {
   "property": "C207",
   "status": "partial",
   "theorems": [
    "Sk.PipeHeap.C207_unchanged_partial",
    "Sk.PipeHeap.C207_overwritten_violated",
    "Sk.PipeHeap.C207_new_partial",
    "Sk.PipeHeap.C207_shared_violated",
    "Sk.PipeHeap.C207_predict_writes_partial",
    "Sk.PipeHeap.C207_predict_values",
    "Sk.PipeHeap.C207_again_partial",
    "Sk.PipeHeap.C207_power_first_violated",
    "Sk.PipeHeap.C207_fit_partial",
    "Sk.PipeHeap.C207_score_partial",
    "Sk.PipeHeap.C207_bins_violated",
    "Sk.PipeHeap.C207_fit_values",
    "Sk.PipeHeap.C207_score_values"
   ],
   "note": "Violated: PowerTransformer.Transform overwrites the caller's X (also as first step of a pipeline: the second prediction for the same X differs); Y returned by feature transformers and X returned by label transformers are the caller's own; KBinsDiscretizer.Transform returns nil for Y, so that a supervised step after it cannot be fitted. User functions of FunctionTransformer may do anything and are excluded. Holds for all other transformers."
  },
  {
   "property": "C208",
   "status": "proved",
   "theorems": [
    "Sk.ScaledPipe.C208_units",
    "Sk.ScaledPipe.C208_linear",
    "Sk.ScaledPipe.C208_bayes"
   ],
   "note": "RobustScaler on a first fit, features whose two quantiles differ. MaxAbsScaler cannot be predicted through (C168). Over the reals."
  },
  {
   "property": "C209",
   "status": "partial",
   "theorems": [
    "Sk.Dbscan.C209_monotone_partial",
    "Sk.Dbscan.C209_one_cluster",
    "Sk.Dbscan.C209_only_noise",
    "Sk.Dbscan.C209_border_violated",
    "Sk.Dbscan.C209_negative_violated"
   ],
   "note": "Proved for core samples, noise and the clusters of core samples, and at both ends of the scale. Refuted for border samples (a sample between two clusters joins the one numbered first, which a smaller MinSamples can change), and with negative weights (a core sample can become noise)."
  },
  {
   "property": "C21",
   "status": "partial",
   "theorems": [
    "Sk.Encode.C21_fit",
    "Sk.Encode.C21_transform",
    "Sk.Encode.C21_inverse_partial",
    "Sk.Encode.C21_inverse_iff",
    "Sk.Encode.C21_inverse_violated",
    "Sk.Encode.C21_unknown_as_first",
    "Sk.Encode.C21_features"
   ],
   "note": "Transform fully proved; InverseTransform returns the rank of the value, so recovery holds exactly for values equal to their rank (iff proved, violation witness)."
  },
  {
   "property": "C210",
   "status": "proved",
   "theorems": [
    "Sk.KnnMono.C210_more_neighbours",
    "Sk.KnnMono.C210_radius",
    "Sk.KnnMono.C210_more_samples",
    "Sk.KnnMono.C210_far_samples"
   ],
   "note": "Exhaustive search; C41 shows when the tree search returns the same. That ties with different targets matter is C194_ties_violated."
  },
  {
   "property": "C211",
   "status": "proved",
   "theorems": [
    "Sk.EnetFit.C211_gap",
    "Sk.EnetFit.C211_null",
    "Sk.EnetFit.C211_orthogonal",
    "Sk.Enet.C211_gap_zero",
    "Sk.Enet.C211_orthogonal_columns",
    "Sk.Enet.C211_large_penalty"
   ],
   "note": "With FitIntercept and, under Normalize, no constant feature; the Sk.Enet theorems are for the descent alone (no intercept). Exact arithmetic."
  },
  {
   "property": "C212",
   "status": "partial",
   "theorems": [
    "Sk.Lin.C212_invariant",
    "Sk.Lin.C212_linear",
    "Sk.Lin.C212_size",
    "Sk.Lin.C212_alpha_violated"
   ],
   "note": "With FitIntercept, L1Ratio 0 and, under Normalize, no constant feature. The last sentence is false: all positive values of Alpha give the same model (C212_alpha_violated), for all data."
  },
  {
   "property": "C213",
   "status": "proved",
   "theorems": [
    "Sk.EnetFit.C213_enet",
    "Sk.EnetFit.C213_enet_origin",
    "Sk.EnetFit.C213_multi",
    "Sk.Logistic.C213_logistic",
    "Sk.Logistic.C213_logistic_loss"
   ],
   "note": "Exact arithmetic; under Normalize no constant feature; logistic regression at points where the gradient vanishes, the loss for probabilities inside the clamp. Ridge ignores the size of Alpha (C212)."
  },
  {
   "property": "C214",
   "status": "partial",
   "theorems": [
    "Sk.PipeHeap.C214_unchanged_partial",
    "Sk.PipeHeap.C214_new_partial",
    "Sk.PipeHeap.C214_round_trip_partial",
    "Sk.PipeHeap.C214_labels_partial",
    "Sk.PipeHeap.C214_pipeline",
    "Sk.PipeHeap.C214_shuffler_violated",
    "Sk.PipeHeap.C214_shuffled_violated",
    "Sk.PipeHeap.C214_lost_violated",
    "Sk.PipeHeap.C214_normalizer_violated",
    "Sk.PipeHeap.C214_shared_violated"
   ],
   "note": "Shuffler overwrites both arguments (and does nothing if they are one matrix); PolynomialFeatures and KBinsDiscretizer return a nil Y; Normalizer always panics; the argument handed on is the caller's matrix itself, for Imputer both."
  },
  {
   "property": "C215",
   "status": "partial",
   "theorems": [
    "Sk.Mlp.C215_names",
    "Sk.Mlp.C215_rows",
    "Sk.Mlp.C215_relu",
    "Sk.Mlp.C215_identity",
    "Sk.Mlp.C215_sgd",
    "Sk.Mlp.C215_adam_violated"
   ],
   "note": "Adam is not indifferent to the names of the parameters: its running powers advance once per parameter, so parameters with the same history move differently."
  },
  {
   "property": "C216",
   "status": "partial",
   "theorems": [
    "Sk.CrossKnn.C216_regressor",
    "Sk.CrossKnn.C216_classifier",
    "Sk.CrossKnn.C216_classifier_partial",
    "Sk.CrossKnn.C216_classifier_violated"
   ],
   "note": "KNeighborsRegressor for all splits; KNeighborsClassifier for the last split of each job only: it keeps the targets it was given, a view of the job's buffer, so the other classifiers vote with the targets of the last split's rows."
  },
  {
   "property": "C217",
   "status": "partial",
   "theorems": [
    "Sk.Svm.C217_svc_partial",
    "Sk.Svm.C217_svr_partial",
    "Sk.Svm.C217_svc_violated"
   ],
   "note": "Holds whenever training ends with the conditions met; a run that ends because MaxPasses rounds changed nothing may be further off (violated: three samples, for all random numbers, a constant function costs less by more than the bound). About the multipliers before those up to Tol are dropped."
  },
  {
   "property": "C218",
   "status": "partial",
   "theorems": [
    "Sk.Svm.C218_positive_partial",
    "Sk.Svm.C218_fit_partial",
    "Sk.Svm.C218_rbf_values",
    "Sk.Svm.C218_cauchy_schwarz",
    "Sk.Svm.C218_training",
    "Sk.Svm.C218_sigmoid_violated",
    "Sk.Svm.C218_fit_sigmoid_violated",
    "Sk.Svm.C218_poly_violated"
   ],
   "note": "Proved for linear, RBF (any Gamma setting: values up to 0 are replaced by one over the number of features) and polynomial kernels with Coef0 >= 0 and natural Degree. Violated by the sigmoid kernel for every Gamma and Coef0 and by polynomial kernels of odd Degree with negative Coef0. A fractional Degree (NaN for negative bases) and user functions are not covered."
  },
  {
   "property": "C219",
   "status": "proved",
   "theorems": [
    "Sk.Pca.C219_orthogonal",
    "Sk.Pca.C219_distances",
    "Sk.Pca.C219_nested",
    "Sk.Pca.C219_kept"
   ],
   "note": "Assumes a correct singular value decomposition (gonum). About sums of squares, not variances: data are not centred (C117)."
  },
  {
   "property": "C22",
   "status": "partial",
   "theorems": [
    "Sk.Encode.C22_pairs",
    "Sk.Encode.C22_inverse_partial",
    "Sk.Encode.C22_inverse_strided_violated"
   ],
   "note": "Pairs kept for every permutation; inverse proved for contiguous matrices; on strided views InverseTransform panics (proved in general)."
  },
  {
   "property": "C220",
   "status": "proved",
   "theorems": [
    "Sk.Interp.C220_smoothest"
   ],
   "note": "Over the reals, gonum's solver assumed to solve the linear system (as for C58)."
  },
  {
   "property": "C221",
   "status": "partial",
   "theorems": [
    "Sk.LinFit.C221_descent_partial",
    "Sk.LinFit.C221_rate_partial",
    "Sk.LinFit.C221_returns",
    "Sk.LinFit.C221_reach_violated",
    "Sk.LinFit.C221_constant_violated"
   ],
   "note": "Without momentum and clipping no epoch increases the loss if StepSize times the curvature is at most 2, and the loss returned is within |start - other|^2 / (2 * sum of the step sizes) of that of any other parameters (partial). Violated: the step sizes StepSize*100/(100+k)/sqrt(k) have a finite sum below 40*StepSize, so that no number of updates moves a parameter further than 40*StepSize/(1-Momentum) times the largest gradient; fitting a constant with the settings of NewSGDOptimizer always leaves at least 23/24 of the distance to the mean of the targets."
  },
  {
   "property": "C222",
   "status": "partial",
   "theorems": [
    "Sk.Neigh.C222_rows",
    "Sk.Neigh.C222_nearest_partial",
    "Sk.Neigh.C222_within_partial",
    "Sk.Neigh.C222_bound_violated",
    "Sk.Neigh.C222_missing_violated"
   ],
   "note": "Each row of the result is the answer for its own query, padded with zeros. Without bound and for k up to the number of samples each row lists k nearest samples; with a bound no sample within it is left out unless k samples that are no farther are listed (partial: at least two features, or p 1 or infinite). Violated: if the data fit into one leaf (30 samples by default) the bound has no effect, so samples beyond it are returned; for k greater than the number of samples the missing places report sample 0 at distance 0 instead of an infinite distance."
  },
  {
   "property": "C223",
   "status": "partial",
   "theorems": [
    "Sk.Knn.C223_same_partial",
    "Sk.Knn.C223_first_violated",
    "Sk.Knn.C223_mean_violated",
    "Sk.Knn.C223_auto_violated"
   ],
   "note": "Equal results are proved for K up to the number of samples and queries whose distances to the samples differ by more than the search tolerance (partial: at least two features, or P=1). Violated for K greater than the number of samples: the exhaustive search refuses, the tree fills up with sample 0 at distance 0; with distance weights the classifier then predicts the class of the first training sample for every query, and the regressor with equal weights returns one number for every query. With Algorithm \"auto\" the step from 1000 to more cells of training data makes this difference."
  },
  {
   "property": "C224",
   "status": "proved",
   "theorems": [
    "Sk.EnetMT.C224_gap_zero",
    "Sk.EnetMT.C224_orthogonal",
    "Sk.EnetMT.C224_large_penalty",
    "Sk.EnetMT.C224_agree",
    "Sk.EnetMT.C224_unique"
   ],
   "note": "Over the reals; rounding is not modelled. That whole runs turn with the axes is not claimed: the stopping test looks at single cells of the coefficient matrix."
  },
  {
   "property": "C225",
   "status": "proved",
   "theorems": [
    "Sk.Regions.C225_kmeans",
    "Sk.Regions.C225_linear",
    "Sk.Regions.C225_far",
    "Sk.Regions.C225_bayes",
    "Sk.Regions.C225_bayes_unequal",
    "Sk.Regions.C225_logistic"
   ],
   "note": "KMeans: with a distance that orders rows as the Euclidean one. LogisticRegression: one column of labels (several columns are C126), refits from other labels to 0/1 excluded (C126). bayes_unequal shows that the hypothesis of equal variances is needed. Exact arithmetic."
  },
  {
   "property": "C226",
   "status": "proved",
   "theorems": [
    "Sk.PolyFit.C226_recovers",
    "Sk.PolyFit.C226_grid",
    "Sk.PolyFit.C226_bias"
   ],
   "note": "gonum's Dense.Solve is a parameter assumed to solve least squares problems with independent columns; C226_bias: with the constant column beside an intercept the columns are never independent, so nothing is claimed there. Exact arithmetic."
  },
  {
   "property": "C227",
   "status": "proved",
   "theorems": [
    "Sk.Scale.C227_features",
    "Sk.Scale.C227_moved",
    "Sk.Scale.C227_square"
   ],
   "note": "With fewer than n rows the output is followed by rows of zeros and with more than n rows Transform panics (C67); the theorems show those rows. Exact arithmetic."
  },
  {
   "property": "C228",
   "status": "proved",
   "theorems": [
    "Sk.Metrics.C228_mse",
    "Sk.Metrics.C228_mae",
    "Sk.Metrics.C228_r2",
    "Sk.Metrics.C228_accuracy",
    "Sk.Mlp.C228_log_loss"
   ],
   "note": "MeanSquaredError and MeanAbsoluteError without weights (C31_weights_violated); R2Score below its threshold is C31_constant_violated. Exact arithmetic."
  },
  {
   "property": "C229",
   "status": "proved",
   "theorems": [
    "Sk.Interp.C229_lipschitz",
    "Sk.Interp.C229_smooth",
    "Sk.Interp.C229_convex"
   ],
   "note": "With a NaN ordinate at an end of the range nothing is claimed (C57_nan_end_violated). Exact arithmetic."
  },
  {
   "property": "C23",
   "status": "partial",
   "theorems": [
    "Sk.Encode.C23_transform",
    "Sk.Encode.C23_mean",
    "Sk.Encode.C23_median",
    "Sk.Encode.C23_most_frequent",
    "Sk.Encode.C23_all_missing_violated"
   ],
   "note": "Proved for every column with a present value and every strategy and map order; for all-missing columns the claim fails (proved)."
  },
  {
   "property": "C230",
   "status": "proved",
   "theorems": [
    "Sk.Lin.C230_residuals",
    "Sk.Lin.C230_nested",
    "Sk.Lin.C230_coefficient",
    "Sk.Lin.C230_fitting_row",
    "Sk.Lin.C230_leverage",
    "Sk.Logistic.C230_logistic"
   ],
   "note": "gonum's Dense.Solve is a parameter assumed to solve least squares problems with independent columns. Exact arithmetic."
  },
  {
   "property": "C231",
   "status": "proved",
   "theorems": [
    "Sk.Svm.C231_svc_agree",
    "Sk.Svm.C231_svr_agree",
    "Sk.Svm.C231_support_only",
    "Sk.Svm.C231_errors"
   ],
   "note": "Training may also end by MaxIter passes without change, with the conditions not met (C172_stuck_violated); nothing is claimed there. Exact arithmetic."
  },
  {
   "property": "C232",
   "status": "partial",
   "theorems": [
    "Sk.LabelBuf.C232_classes_partial",
    "Sk.LabelBuf.C232_rows",
    "Sk.LabelBuf.C232_encode",
    "Sk.LabelBuf.C232_labels",
    "Sk.LabelBuf.C232_nan_violated",
    "Sk.LabelBuf.C232_neg_violated"
   ],
   "note": "Violated: a NaN label is listed as a class each time it occurs, and is encoded as unknown; the cells of the other classes hold 0 also with another NegLabel. Values +0 and -0 are one number."
  },
  {
   "property": "C233",
   "status": "partial",
   "theorems": [
    "Sk.LinFit.C233_square_partial",
    "Sk.LinFit.C233_cross_entropy",
    "Sk.LinFit.C233_cross_entropy_violated",
    "Sk.LinFit.C233_log_violated",
    "Sk.LinFit.C233_log_value"
   ],
   "note": "Violated: with an activation other than base.Logistic, CrossEntropyLoss (and LogLoss with any) leaves the factor X[i][j] out of the gradient: every feature of an output gets the same number. The square loss is right with every activation. The penalty is treated in C49 and C89. Predictions that the loss clamps to eps or 1-eps are not covered."
  },
  {
   "property": "C234",
   "status": "partial",
   "theorems": [
    "Sk.KMeans.C234_recovers_partial",
    "Sk.KMeans.C234_start_violated"
   ],
   "note": "Proved when the first NClusters rows, with which Fit starts, lie in different groups; the result is then reached in the first round. Violated otherwise: for the rows 0, 1, s, 2s and 3 clusters the wrong groups are found for every s >= 4. Exact arithmetic."
  },
  {
   "property": "C235",
   "status": "proved",
   "theorems": [
    "Sk.GroupsApart.C235_dbscan",
    "Sk.GroupsApart.C235_neighbours"
   ],
   "note": "Brute search of neighbours. Heavier than MinSamples is meant strictly, see C33. Exact arithmetic."
  },
  {
   "property": "C236",
   "status": "partial",
   "theorems": [
    "Sk.KMeans.C236_cost_partial",
    "Sk.KMeans.C236_exact",
    "Sk.KMeans.C236_best_violated"
   ],
   "note": "Proved: never worse than the start, not improvable in one step, least for one cluster. Violated: the clustering need not be the best one; it can be worse by any factor. Exact arithmetic."
  },
  {
   "property": "C237",
   "status": "proved",
   "theorems": [
    "Sk.PrepRank.C237_order",
    "Sk.PrepRank.C237_box_cox",
    "Sk.PrepRank.C237_scores"
   ],
   "note": "Yeo-Johnson with parameter 0 gives NaN (C25). RobustScaler on a first fit (C66). Exact real arithmetic."
  },
  {
   "property": "C238",
   "status": "proved",
   "theorems": [
    "Sk.Interp.C238_lipschitz",
    "Sk.Interp.C238_smooth",
    "Sk.Interp.C238_bounds"
   ],
   "note": "Points with NaN values are excluded (GoodGrid of C107). Exact arithmetic."
  },
  {
   "property": "C239",
   "status": "proved",
   "theorems": [
    "Sk.ScoreFacts.C239_auc",
    "Sk.ScoreFacts.C239_average_precision",
    "Sk.ScoreFacts.C239_fscore",
    "Sk.ScoreFacts.C239_errors",
    "Sk.ScoreFacts.C239_r2_mse"
   ],
   "note": "F-score: predicted labels among the true ones (C28 otherwise). Errors and R2 without weights, one output. Exact arithmetic."
  },
  {
   "property": "C24",
   "status": "partial",
   "theorems": [
    "Sk.Encode.C24_bin",
    "Sk.Encode.C24_unique",
    "Sk.Encode.C24_monotone",
    "Sk.Encode.C24_inverse",
    "Sk.Encode.C24_fit_uniform",
    "Sk.Encode.C24_fit_quantile_partial",
    "Sk.Encode.C24_quantile_violated",
    "Sk.Encode.C24_onehot_violated",
    "Sk.Encode.C24_no_bins"
   ],
   "note": "Bins, uniqueness, monotonicity and midpoint inverse proved for all edges; uniform fit proved; the default quantile strategy panics on unsorted columns and encoding onehot returns nil (proved)."
  },
  {
   "property": "C240",
   "status": "proved",
   "theorems": [
    "Sk.Sensitivity.C240_knn",
    "Sk.Sensitivity.C240_knn_one",
    "Sk.Sensitivity.C240_interp",
    "Sk.Sensitivity.C240_least_squares",
    "Sk.Sensitivity.C240_leverage",
    "Sk.Sensitivity.C240_mae"
   ],
   "note": "Neighbours: 1 <= k <= n. Interpolation: distinct abscissae, known ordinates. LinearRegression: rows in no hyperplane and a least squares solver, as in C197. MeanAbsoluteError without weights, one output. Exact arithmetic."
  },
  {
   "property": "C241",
   "status": "proved",
   "theorems": [
    "Sk.Robust.C241_ridge",
    "Sk.Robust.C241_votes",
    "Sk.Robust.C241_accuracy"
   ],
   "note": "Ridge: the minimiser ends where its gradient vanishes (assumed of gonum, as in C173); all positive values of Alpha act as 1 (C212). Accuracy: nonnegative weights with positive sum. Exact arithmetic."
  },
  {
   "property": "C242",
   "status": "proved",
   "theorems": [
    "Sk.Outliers.C242_standard",
    "Sk.Outliers.C242_robust"
   ],
   "note": "StandardScaler with mean and standard deviation. RobustScaler: a first fit, or one on as many rows as the first (see C66 for others). Exact arithmetic."
  },
  {
   "property": "C243",
   "status": "proved",
   "theorems": [
    "Sk.ConfFacts.C243_margins",
    "Sk.ConfFacts.C243_accuracy"
   ],
   "note": "Label vectors (one column); see C28 for predicted labels absent from the true ones. Exact arithmetic."
  },
  {
   "property": "C244",
   "status": "proved",
   "theorems": [
    "Sk.PolyOrder.C244_order",
    "Sk.PolyOrder.C244_number",
    "Sk.PolyOrder.C244_interactions"
   ],
   "note": "Degree at least 0. The generators run in goroutines whose values are ranged over until the channel is closed; they are modelled as the lists of values sent."
  },
  {
   "property": "C245",
   "status": "proved",
   "theorems": [
    "Sk.Interp.C245_slopes",
    "Sk.Interp.C245_rising",
    "Sk.Interp.C245_inverse"
   ],
   "note": "The inverse is stated for points without NaN. NaN ordinates at the ends: see C57. Exact arithmetic."
  },
  {
   "property": "C246",
   "status": "proved",
   "theorems": [
    "Sk.LeftOut.C246_left_out",
    "Sk.LeftOut.C246_one_row",
    "Sk.LeftOut.C246_ridge"
   ],
   "note": "The solver of the least squares problem is assumed correct; for Ridge the minimiser ends where the gradient vanishes, Normalize is off, and the penalty used is 1 or 0 (C173). Exact arithmetic."
  },
  {
   "property": "C247",
   "status": "proved",
   "theorems": [
    "Sk.Copies.C247_ranges",
    "Sk.Copies.C247_standard",
    "Sk.Copies.C247_robust",
    "Sk.Copies.C247_linear",
    "Sk.Copies.C247_bayes_fit",
    "Sk.Copies.C247_bayes",
    "Sk.Copies.C247_elastic"
   ],
   "note": "RobustScaler: the buffer is nil or of the length of the column (another length is C66). LinearRegression: samples in no hyperplane, the solver of the least squares problem is assumed correct. Exact arithmetic."
  },
  {
   "property": "C248",
   "status": "proved",
   "theorems": [
    "Sk.Correlation.C248_training",
    "Sk.Correlation.C248_one_feature",
    "Sk.Correlation.C248_exchanged"
   ],
   "note": "The solver of the least squares problem is assumed correct; the sum of squares of the targets about their mean is at least the threshold 1e-20 of R2Score (below it see C171_unit_violated). Exact arithmetic."
  },
  {
   "property": "C249",
   "status": "proved",
   "theorems": [
    "Sk.Imputed.C249_again",
    "Sk.Imputed.C249_spread",
    "Sk.Imputed.C249_standard",
    "Sk.Imputed.C249_robust",
    "Sk.Imputed.C249_ranges"
   ],
   "note": "Exact arithmetic; the square root is any function positive on positive numbers. Columns without present values: C23_all_missing_violated."
  },
  {
   "property": "C25",
   "status": "partial",
   "theorems": [
    "Sk.Power.C25_roundtrip_partial",
    "Sk.Power.C25_strictMono",
    "Sk.Power.C25_transformer_partial",
    "Sk.Power.C25_violated"
   ],
   "note": "Round trip and strict monotonicity over the reals for every lambda except 0; at lambda 0 the code yields NaN (proved)."
  },
  {
   "property": "C250",
   "status": "proved",
   "theorems": [
    "Sk.Parts.C250_accuracy",
    "Sk.Parts.C250_errors",
    "Sk.Parts.C250_r2",
    "Sk.Parts.C250_confusion"
   ],
   "note": "Errors without sample weights (with weights see C31_weights_violated); R2Score for parts whose sum of squares about the mean is at least the threshold 1e-20 of R2Score. Exact arithmetic."
  },
  {
   "property": "C251",
   "status": "proved",
   "theorems": [
    "Sk.BayesNearest.C251_nearest",
    "Sk.BayesNearest.C251_odds"
   ],
   "note": "Exact arithmetic with real logarithm and exponential; floats.LogSumExp and floats.MaxIdx as documented. For different variances see C225_bayes_unequal."
  },
  {
   "property": "C252",
   "status": "proved",
   "theorems": [
    "Sk.MlpMoves.C252_moves",
    "Sk.MlpMoves.C252_bounded",
    "Sk.MlpMoves.C252_classes"
   ],
   "note": "Exact arithmetic with the real exponential and hyperbolic tangent. The package's tanh is that of the negated argument (C52), which does not matter here."
  },
  {
   "property": "C253",
   "status": "proved",
   "theorems": [
    "Sk.SvmBounded.C253_svr",
    "Sk.SvmBounded.C253_svc"
   ],
   "note": "Exact arithmetic. Training is the state machine of C37 and C38; the kernel values of a row against the training samples are given as numbers between 0 and 1 (for the RBF kernel by C218_rbf_values). The SVC part is shown to apply by a case with the linear kernel; whether training with the RBF kernel ever ends with an offset that far from 0 is not shown."
  },
  {
   "property": "C26",
   "status": "proved",
   "theorems": [
    "Sk.Metrics.C26_accuracy",
    "Sk.Metrics.C26_accuracy_order"
   ],
   "note": "full property"
  },
  {
   "property": "C27",
   "status": "partial",
   "theorems": [
    "Sk.Metrics.C27_class_scores_partial",
    "Sk.Metrics.C27_micro_partial",
    "Sk.Metrics.C27_macro_partial",
    "Sk.Metrics.C27_weighted_violated"
   ],
   "note": "predicted labels among the true ones; 'weighted' average is refuted"
  },
  {
   "property": "C28",
   "status": "partial",
   "theorems": [
    "Sk.Metrics.C28_confusion_partial",
    "Sk.Metrics.C28_total",
    "Sk.Metrics.C28_unknown_violated"
   ],
   "note": "predicted labels among the true ones; refuted otherwise"
  },
  {
   "property": "C29",
   "status": "proved",
   "theorems": [
    "Sk.Rank.C29_auc_mann_whitney",
    "Sk.Rank.C29_auc_properties",
    "Sk.Rank.C29_roc_auc_score",
    "Sk.Rank.C29_roc_auc_unweighted"
   ],
   "note": "full property, with weights"
  },
  {
   "property": "C30",
   "status": "proved",
   "theorems": [
    "Sk.Rank.C30_roc_curve",
    "Sk.Rank.C30_start",
    "Sk.Rank.C30_one_class"
   ],
   "note": "full property, with weights; first point is (0,0) only if a negative shares the top score"
  },
  {
   "property": "C31",
   "status": "partial",
   "theorems": [
    "Sk.Metrics.C31_r2_partial",
    "Sk.Metrics.C31_r2_outputs",
    "Sk.Metrics.C31_constant_violated",
    "Sk.Metrics.C31_mean_error_partial",
    "Sk.Metrics.C31_weights_violated",
    "Sk.Metrics.C31_r2_variance",
    "Sk.Metrics.C31_mean_error_outputs"
   ],
   "note": "weights of MSE/MAE and constant targets refuted"
  },
  {
   "property": "C32",
   "status": "partial",
   "theorems": [
    "Sk.Dbscan.C32_fit",
    "Sk.Dbscan.C32_inner",
    "Sk.Dbscan.C32_predict",
    "Sk.Dbscan.C32_tree_partial",
    "Sk.Dbscan.C32_one_feature_violated"
   ],
   "note": "End to end for the exhaustive radius search with any symmetric distance, for any neighbour lists, and for the tree search with at least two features (or power 1); core samples as the code defines them (see C33). With a tree and one feature the clusters are wrong (witness)."
  },
  {
   "property": "C33",
   "status": "partial",
   "theorems": [
    "Sk.Dbscan.C33_core_partial",
    "Sk.Dbscan.C32_tree_partial",
    "Sk.Dbscan.C33_threshold_violated",
    "Sk.Dbscan.C33_refit_violated"
   ],
   "note": "The code uses 'more than MinSamples' and never clears the indices: both disagreements proved for all data; what is reported is proved exactly, also for the tree search."
  },
  {
   "property": "C34",
   "status": "proved",
   "theorems": [
    "Sk.KMeans.C34_predict",
    "Sk.KMeans.C34_iteration",
    "Sk.KMeans.euclid_orders"
   ],
   "note": "For all data, centroids, labels and summation orders, exact arithmetic."
  },
  {
   "property": "C35",
   "status": "proved",
   "theorems": [
    "Sk.Svm.C35_values",
    "Sk.Svm.C35_kernels"
   ],
   "note": "request histories, capacities and map orders arbitrary"
  },
  {
   "property": "C36",
   "status": "partial",
   "theorems": [
    "Sk.Svm.C36_partial",
    "Sk.Svm.C36_zero_violated"
   ],
   "note": "sizes 1..2^44-1 proved; size 0 grows without bound (violation proved)"
  },
  {
   "property": "C37",
   "status": "proved",
   "theorems": [
    "Sk.Svm.C37_steps",
    "Sk.Svm.C37_train"
   ],
   "note": "invariant over all step sequences"
  },
  {
   "property": "C38",
   "status": "proved",
   "theorems": [
    "Sk.Svm.C38_steps",
    "Sk.Svm.C38_train"
   ],
   "note": "includes the division by zero case eta=0"
  },
  {
   "property": "C39",
   "status": "proved",
   "theorems": [
    "Sk.Neigh.C39_kneighbors",
    "Sk.Neigh.C39_ties"
   ],
   "note": "Brute force, any distance, any sort tie order; also the panic when k exceeds the number of samples."
  },
  {
   "property": "C40",
   "status": "proved",
   "theorems": [
    "Sk.Neigh.C40_radius",
    "Sk.Neigh.C40_tree_partial"
   ],
   "note": "Brute force in full; additionally the kd-tree variant, for more than one feature or p = 1 or infinity."
  },
  {
   "property": "C41",
   "status": "partial",
   "theorems": [
    "Sk.Neigh.C41_query_partial",
    "Sk.Neigh.C41_same_as_brute_partial",
    "Sk.Neigh.C41_eps_partial",
    "Sk.Neigh.C41_one_feature_violated",
    "Sk.Neigh.C41_zero_violated"
   ],
   "note": "Exact for every data set with at least two features (or p = 1, p = infinity), also the (1+eps) guarantee. False with one feature and other p: proved counterexample."
  },
  {
   "property": "C42",
   "status": "partial",
   "theorems": [
    "Sk.Neigh.C42_build_partial",
    "Sk.Neigh.C42_repeated_violated",
    "Sk.Neigh.C42_leaves"
   ],
   "note": "Termination and partition when no value repeats more than leafSize times in a column; with more repetitions construction never returns (general counterexample)."
  },
  {
   "property": "C43",
   "status": "partial",
   "theorems": [
    "Sk.Neigh.C43_formula_partial",
    "Sk.Neigh.C43_metric_partial",
    "Sk.Neigh.C43_inf",
    "Sk.Neigh.C43_one_feature_violated"
   ],
   "note": "True for at least two features; with one feature the code returns |a-b|^(1/p)."
  },
  {
   "property": "C44",
   "status": "partial",
   "theorems": [
    "Sk.Knn.C44_vote",
    "Sk.Knn.C44_predict",
    "Sk.Knn.C44_proba_partial",
    "Sk.Knn.C44_stale_violated",
    "Sk.Knn.C44_columns"
   ],
   "note": "Predict proved; PredictProba proved for a zeroed output row; stale cells otherwise (violation proved)"
  },
  {
   "property": "C45",
   "status": "partial",
   "theorems": [
    "Sk.NB.C45_partial",
    "Sk.NB.C45_first_fit",
    "Sk.NB.C45_fit",
    "Sk.NB.C45_two_batches",
    "Sk.NB.C45_variance_violated"
   ],
   "note": "Counts, priors and means of any history equal the batch ones; a single fit gives the right variances. Variances of several batches are wrong in the code (line 362 reads the already updated mean; line 198 subtracts the new epsilon): exact formula and violation proved."
  },
  {
   "property": "C46",
   "status": "proved",
   "theorems": [
    "Sk.Enet.C46_step",
    "Sk.Enet.C46_fit",
    "Sk.Enet.C46_fixpoint_optimal"
   ],
   "note": "Each coordinate update minimises the objective along that coordinate, the residual is tracked exactly, coefficients stay nonnegative with Positive; a point no update changes is globally optimal."
  },
  {
   "property": "C47",
   "status": "partial",
   "theorems": [
    "Sk.Enet.C47_gap",
    "Sk.Enet.C47_fit_partial",
    "Sk.Enet.C47_no_iteration_violated"
   ],
   "note": "Gap bounds the distance to every competitor whenever it was computed; with MaxIter=0 it never is and the reported value certifies nothing (violation proved)."
  },
  {
   "property": "C48",
   "status": "partial",
   "theorems": [
    "Sk.Lin.C48_recombination",
    "Sk.Lin.C48_least_squares",
    "Sk.Lin.C48_no_intercept",
    "Sk.Lin.C48_constant_column_violated"
   ],
   "note": "Exact for all data as stated (non-constant columns when Normalize), least-squares optimality included; a constant column with Normalize gives undefined coefficients (proved for every solver and data set)."
  },
  {
   "property": "C49",
   "status": "partial",
   "theorems": [
    "Sk.Lin.C49_square_true",
    "Sk.Lin.C49_square_partial",
    "Sk.Lin.C49_square_ridge_violated",
    "Sk.Lin.C49_square_lasso_violated",
    "Sk.Lin.C49_square_first_partial"
   ],
   "note": "True derivative computed for every Alpha, L1Ratio and number of outputs; the written gradient is correct for Alpha<=0 and wrong for every Alpha>0 other than 1 (ridge) or 2 (lasso)."
  },
  {
   "property": "C50",
   "status": "proved",
   "theorems": [
    "Sk.Lin.C50_linfit",
    "Sk.Mlp.C50_mlp_batches",
    "Sk.Mlp.C50_mlp_batch_size"
   ],
   "note": "Mini-batch ranges of LinFit and of the MLP's stochastic solvers; batch size chosen by fit."
  },
  {
   "property": "C51",
   "status": "proved",
   "theorems": [
    "Sk.Mlp.C51_rows_restored"
   ],
   "note": "Any exchanges; the final sort is any sequence of exchanges that leaves the indices increasing. A panic during training (not a return) leaves rows exchanged."
  },
  {
   "property": "C52",
   "status": "partial",
   "theorems": [
    "Sk.Mlp.C52_derivatives_partial",
    "Sk.Mlp.C52_tanh_value_violated",
    "Sk.Mlp.C52_tanh_derivative_violated"
   ],
   "note": "identity, logistic, relu derivatives are right; tanh computes tanh(-z) and its derivative has the wrong sign (violated)."
  },
  {
   "property": "C53",
   "status": "partial",
   "theorems": [
    "Sk.Mlp.C53_best_epoch_partial",
    "Sk.Mlp.C53_nonpositive_violated",
    "Sk.Mlp.C53_refit_violated"
   ],
   "note": "Holds when some score exceeds the recorded best (0 on a new network); otherwise all parameters become 0."
  },
  {
   "property": "C54",
   "status": "proved",
   "theorems": [
    "Sk.Mlp.C54_probabilities",
    "Sk.Mlp.C54_labels",
    "Sk.Mlp.C54_softmax_argmax",
    "Sk.Mlp.C54_output_kind"
   ],
   "note": "Over the reals (overflow of exp is not modelled)."
  },
  {
   "property": "C55",
   "status": "proved",
   "theorems": [
    "Sk.GP.C55_symmetric_diag"
   ],
   "note": "All kernels including Exponentiation with natural exponents; equality up to tolerance in WhiteKernel modelled."
  },
  {
   "property": "C56",
   "status": "partial",
   "theorems": [
    "Sk.GP.C56_clone_partial",
    "Sk.GP.C56_white_violated",
    "Sk.GP.C56_exponent_violated",
    "Sk.GP.C56_exponent_sum_violated",
    "Sk.GP.C56_fixed_operand_violated"
   ],
   "note": "Holds without exponentiation, free noise levels and fixed second operands; each exclusion is a proved violation."
  },
  {
   "property": "C57",
   "status": "proved",
   "theorems": [
    "Sk.Interp.C57_interpolates",
    "Sk.Interp.C57_order",
    "Sk.Interp.C57_nan_end_violated",
    "Sk.Interp.C57_duplicate"
   ],
   "note": "Interp1d for at least two points with distinct abscissae in any order, NaN ordinates skipped when the extreme points are known; linear extrapolation; order irrelevant. With NaN at an end the next point is lost (shown)."
  },
  {
   "property": "C58",
   "status": "proved",
   "theorems": [
    "Sk.Interp.C58_spline",
    "Sk.Interp.C58_any_slopes",
    "Sk.Interp.C58_order",
    "Sk.Interp.C58_system"
   ],
   "note": "Over the reals: passes through the points, twice continuously differentiable on the whole line, natural ends, piecewise cubic, order irrelevant; for arbitrary solver output still continuous, C1 and through the points; the system has exactly one solution. gonum's solver is a parameter assumed to return a solution."
  },
  {
   "property": "C59",
   "status": "partial",
   "theorems": [
    "Sk.Octave.C59_round_trip",
    "Sk.Octave.C59_accepted_partial",
    "Sk.Octave.C59_chunks_exact_partial",
    "Sk.Octave.C59_same_result_partial",
    "Sk.Octave.C59_truncation_partial",
    "Sk.Octave.C59_chunks_violated",
    "Sk.Octave.C59_truncation_violated",
    "Sk.Octave.C59_documentation_violated"
   ],
   "note": "Round trip proved for files read in one piece, and everything accepted is a well formed file of what is returned (plus at most a stray name length). Two chunkings never give different results, but one may panic: exactly when a chunk ends inside a field other than the cells. A truncated file is accepted exactly at a variable boundary or right after a name length. Files with documentation strings panic."
  },
  {
   "property": "C60",
   "status": "proved",
   "theorems": [
    "Sk.Opt.C60_clipping"
   ],
   "note": "Per output, for all gradients and bounds, over the reals."
  },
  {
   "property": "C61",
   "status": "partial",
   "theorems": [
    "Sk.LinClone.C61_refit_partial",
    "Sk.LinClone.C61_refit_violated"
   ],
   "note": "Proved with FitIntercept; violated (proved) when FitIntercept is switched off between fits: the old intercept survives."
  },
  {
   "property": "C62",
   "status": "partial",
   "theorems": [
    "Sk.Pipeline.C62_score_partial",
    "Sk.Pipeline.C62_score_violated"
   ],
   "note": "Holds when inverse target transforms are the identity; violated otherwise (proved)."
  },
  {
   "property": "C63",
   "status": "partial",
   "theorems": [
    "Sk.Label.C63_multi_roundtrip",
    "Sk.Label.C63_ragged_violated"
   ],
   "note": "Rectangular tables proved; rows of different lengths lose labels or panic."
  },
  {
   "property": "C64",
   "status": "partial",
   "theorems": [
    "Sk.Scale.C64_numpy_var_partial",
    "Sk.Scale.C64_numpy_var_violated",
    "Sk.PrepHelpers.C64_std_partial",
    "Sk.PrepHelpers.C64_std_violated"
   ],
   "note": "Right iff as many columns as rows or constant column, for Var and Std; violated in every other case (general)."
  },
  {
   "property": "C65",
   "status": "partial",
   "theorems": [
    "Sk.Scale.C65_maxabs",
    "Sk.Scale.C65_maxabs_incremental",
    "Sk.Scale.C65_maxabs_violated"
   ],
   "note": "Range, inverse, incremental proved; PartialFit on a new scaler panics; NSamplesSeen never reset."
  },
  {
   "property": "C66",
   "status": "partial",
   "theorems": [
    "Sk.Scale.C66_robust_partial",
    "Sk.Scale.quantile_spec",
    "Sk.Scale.C66_refit_violated"
   ],
   "note": "First fit or same row count; refit on another row count wrong or panics."
  },
  {
   "property": "C67",
   "status": "partial",
   "theorems": [
    "Sk.Scale.C67_kernel_centered_partial",
    "Sk.Scale.C67_rows_violated"
   ],
   "note": "Square training kernel proved; other row counts wrong."
  },
  {
   "property": "C68",
   "status": "partial",
   "theorems": [
    "Sk.Scale.C68_normalize_partial",
    "Sk.Scale.C68_norms",
    "Sk.Scale.C68_axis1_violated",
    "Sk.Scale.C68_rows_partial"
   ],
   "note": "Unit norm proved for the vector operation; default axis panics on non-square data."
  },
  {
   "property": "C69",
   "status": "partial",
   "theorems": [
    "Sk.Scale.C69_binarize_partial",
    "Sk.Scale.C69_stride_violated"
   ],
   "note": "Contiguous matrices proved; views with at least two rows panic."
  },
  {
   "property": "C70",
   "status": "partial",
   "theorems": [
    "Sk.Power.C70_domain",
    "Sk.Power.C70_roundtrip_partial",
    "Sk.Power.C70_violated"
   ],
   "note": "Exact characterisation of the round trip; fails for every value in (0,1)."
  },
  {
   "property": "C71",
   "status": "partial",
   "theorems": [
    "Sk.Power.C71_input_overwritten",
    "Sk.Power.C71_violated"
   ],
   "note": "The claim is false: the input is overwritten; exact condition and witness proved."
  },
  {
   "property": "C72",
   "status": "partial",
   "theorems": [
    "Sk.Power.C72_quantile_partial",
    "Sk.Power.C72_columns_violated",
    "Sk.Power.C72_unsorted_violated",
    "Sk.Power.C72_ties_violated"
   ],
   "note": "Proved for strictly increasing training columns; violations for unsorted columns, ties and columns numbered NQuantiles or more."
  },
  {
   "property": "C73",
   "status": "partial",
   "theorems": [
    "Sk.Rank.C73_average_partial",
    "Sk.Rank.C73_samples_violated",
    "Sk.Rank.C73_micro_weights_violated",
    "Sk.Rank.C73_no_positive"
   ],
   "note": "samples and weighted micro refuted"
  },
  {
   "property": "C74",
   "status": "proved",
   "theorems": [
    "Sk.Rank.C74_pr_curve",
    "Sk.Rank.C74_average_precision",
    "Sk.Rank.C74_score"
   ],
   "note": "positive weights"
  },
  {
   "property": "C75",
   "status": "partial",
   "theorems": [
    "Sk.Neigh.C75_graph_connectivity_partial",
    "Sk.Neigh.C75_graph_distance_violated",
    "Sk.Neigh.C75_graph_distance_values_violated"
   ],
   "note": "Connectivity mode proved; distance mode uses truncated distances as column numbers (violated)."
  },
  {
   "property": "C76",
   "status": "partial",
   "theorems": [
    "Sk.Dbscan.C76_named_partial",
    "Sk.Dbscan.C76_power_violated"
   ],
   "note": "The configured power is ignored."
  },
  {
   "property": "C77",
   "status": "proved",
   "theorems": [
    "Sk.KMeans.C77_fit",
    "Sk.KMeans.C77_empty",
    "Sk.KMeans.C77_panics"
   ],
   "note": "Exact arithmetic; lexicographic descent of (sum of squares, sum of labels) over finitely many labellings. Empty clusters end at the origin, which happens whenever there are fewer distinct rows than clusters."
  },
  {
   "property": "C78",
   "status": "partial",
   "theorems": [
    "Sk.Knn.C78_violated",
    "Sk.Knn.C78_one_violated",
    "Sk.Knn.C78_one_partial",
    "Sk.Knn.C78_centroid"
   ],
   "note": "violated with two or more features (prediction constant) and with one feature as soon as two classes have different means (all distances above 1 become infinite); centroids proved; one-feature case proved under a separation hypothesis"
  },
  {
   "property": "C79",
   "status": "proved",
   "theorems": [
    "Sk.Knn.C79_regress"
   ],
   "note": "uniform and distance weights; custom weight functions not modelled"
  },
  {
   "property": "C80",
   "status": "partial",
   "theorems": [
    "Sk.Knn.C80_partial",
    "Sk.Knn.C80_violated"
   ],
   "note": "classes proved; counts misaligned for some map order"
  },
  {
   "property": "C81",
   "status": "proved",
   "theorems": [
    "Sk.Svm.C81_step"
   ],
   "note": ""
  },
  {
   "property": "C82",
   "status": "proved",
   "theorems": [
    "Sk.Svm.C82_terminates"
   ],
   "note": "exact arithmetic"
  },
  {
   "property": "C83",
   "status": "partial",
   "theorems": [
    "Sk.Svm.C83_single_class_violated",
    "Sk.Svm.C83_model_partial"
   ],
   "note": "single-class data always panics (violation proved)"
  },
  {
   "property": "C84",
   "status": "partial",
   "theorems": [
    "Sk.Svm.C84_score_violated",
    "Sk.Svm.C84_score_partial"
   ],
   "note": "labels -1 never match the 0/1 predictions (violation proved); 0/1 labels proved"
  },
  {
   "property": "C85",
   "status": "proved",
   "theorems": [
    "Sk.Svm.C85_step",
    "Sk.Svm.C85_model"
   ],
   "note": ""
  },
  {
   "property": "C86",
   "status": "partial",
   "theorems": [
    "Sk.NB.C86_refit_violated",
    "Sk.NB.C86_unknown_label"
   ],
   "note": "Violated: a second Fit always panics. Unknown labels are refused: proved."
  },
  {
   "property": "C87",
   "status": "proved",
   "theorems": [
    "Sk.NB.C87_predict",
    "Sk.NB.C87_proba",
    "Sk.NB.C87_distribution"
   ],
   "note": "Over the reals; positive priors and variances."
  },
  {
   "property": "C88",
   "status": "partial",
   "theorems": [
    "Sk.Enet.C88_partial",
    "Sk.Enet.C88_count_violated",
    "Sk.Enet.C88_sweep_maxima"
   ],
   "note": "Early stop implies gap below tolerance; each sweep records the largest coefficient and the largest change; without early stop NIter is MaxIter+1 (violation proved)."
  },
  {
   "property": "C89",
   "status": "proved",
   "theorems": [
    "Sk.Lin.C89_cross_entropy",
    "Sk.Lin.C89_wherever"
   ],
   "note": "All data, targets, Alpha, L1Ratio, outputs."
  },
  {
   "property": "C90",
   "status": "partial",
   "theorems": [
    "Sk.Lin.C90_log_true",
    "Sk.Lin.C90_log_violated",
    "Sk.Lin.C90_log_ones_partial"
   ],
   "note": "True gradient computed; the written one omits the feature value, hence wrong for every feature above 1 (violation proved); correct for the column of ones."
  },
  {
   "property": "C91",
   "status": "partial",
   "theorems": [
    "Sk.Lin.C91_sgd_partial",
    "Sk.Lin.C91_sgd_violated",
    "Sk.Lin.C91_sgd_ridge_violated"
   ],
   "note": "Direction is n times the gradient when Alpha=0 (so wrong for n>=2), and the ridge term uses the gradient instead of the coefficient (violations proved)."
  },
  {
   "property": "C92",
   "status": "partial",
   "theorems": [
    "Sk.Lin.C92_best_epoch",
    "Sk.Lin.C92_epoch_count_violated"
   ],
   "note": "Best epoch proved for all histories; reported epoch number is one too large (violation proved)."
  },
  {
   "property": "C93",
   "status": "partial",
   "theorems": [
    "Sk.Mlp.C93_backprop_partial",
    "Sk.Mlp.C93_tanh_true",
    "Sk.Mlp.C93_tanh_violated",
    "Sk.Mlp.C93_multilabel_violated"
   ],
   "note": "Holds for identity, logistic, relu hidden layers and the paired losses with one-hot/regression targets; wrong for tanh and for softmax with several 1s per row."
  },
  {
   "property": "C94",
   "status": "partial",
   "theorems": [
    "Sk.Mlp.C94_stopping_rule",
    "Sk.Mlp.C94_adaptive",
    "Sk.Mlp.C94_stale_count_violated"
   ],
   "note": "Exact rule without early stopping, for the constant and inverse-scaling rates and adam (stop at the first stall) and for the adaptive rate (divide by 5 at each stall, stop at the first stall with a rate of at most 1e-6); with early stopping the count of an earlier fit is not reset (violated)."
  },
  {
   "property": "C95",
   "status": "partial",
   "theorems": [
    "Sk.Mlp.C95_sgd",
    "Sk.Mlp.C95_adaptive",
    "Sk.Mlp.C95_adam_exact",
    "Sk.Mlp.C95_adam_partial",
    "Sk.Mlp.C95_adam_violated"
   ],
   "note": "SGD proved; Adam textbook for one parameter only: the running powers advance once per parameter."
  },
  {
   "property": "C96",
   "status": "partial",
   "theorems": [
    "Sk.Mlp.C96_full_batch_partial",
    "Sk.Mlp.C96_intercept_violated",
    "Sk.Mlp.C96_loss_violated"
   ],
   "note": "Full batches right; smaller last batch averages left-over rows."
  },
  {
   "property": "C97",
   "status": "partial",
   "theorems": [
    "Sk.Mlp.C97_split_partial",
    "Sk.Mlp.C97_leak_violated"
   ],
   "note": "Split within an epoch; violated across epochs because shuffling exchanges validation rows with training rows."
  },
  {
   "property": "C98",
   "status": "partial",
   "theorems": [
    "Sk.Mlp.C98_one_output_partial",
    "Sk.Mlp.C98_two_outputs_violated",
    "Sk.Mlp.C98_panics_violated"
   ],
   "note": "One output right; several outputs decode wrongly or panic."
  },
  {
   "property": "C99",
   "status": "proved",
   "theorems": [
    "Sk.Mlp.C99_accuracy",
    "Sk.Mlp.C99_r2"
   ],
   "note": "Per column for r2."
  }
 ]
}