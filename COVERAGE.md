| file | function | lines | model |
|---|---|---|---|
| _eigvals.py | `EigVals.__init__` | 17-35 | `Convert.eigValsOf`, `EigVals.initEigVals`, `MatrixInput.asFloat`, `MatrixInput.fromMatrix`, `MatrixInput.squareEigs`, `Memory.PyObj`, `Memory.St.step`, `Missing.fromMatrixFl`, `ReportMemory.RSt.step`, `Sparse.sparseEigs`, `StepMachine.sortNaN` |
| _eigvals.py | `EigVals.original_values` | 37-39 | `Memory.Ref` |
| _eigvals.py | `EigVals.original_eigs` | 41-43 | `Memory.Ref` |
| _eigvals.py | `EigVals.original_eigenvalues` | 45-47 | `Memory.Ref` |
| _eigvals.py | `EigVals.values` | 49-51 | not modelled: raises NotImplementedError (abstract) |
| _eigvals.py | `EigVals.vals` | 53-55 | not modelled: raises NotImplementedError (abstract) |
| _eigvals.py | `EigVals.steps` | 57-61 | `EigVals.getSteps`, `Memory.PyObj`, `Memory.St.step` |
| _eigvals.py | `EigVals.spacings` | 63-65 | `EigVals.spacings` |
| _eigvals.py | `EigVals.step_function` | 67-68 | `Objects.stepFunctionOf`, `Objects.unfoldedStepFunction` |
| _eigvals.py | `EigVals.plot_sorted` | 70-71 | `Figures.plotMethod`, `Figures.sortedBody` |
| _eigvals.py | `EigVals.plot_distribution` | 73-74 | `Figures.plotDist`, `Figures.plotMethod` |
| _eigvals.py | `EigVals.plot_steps` | 76-77 | `Figures.plotMethod`, `Plots.plotSteps` |
| _eigvals.py | `EigVals.plot_spacings` | 79-80 | `Figures.plotMethod` |
| _types.py | `MatrixKind.validate` | 30-38 | `Generate.KindArg.validate`, `Unfold.validateKind` |
| _validate.py | `make_1d_array` | 9-19 | `Convert.make1dOf`, `EigVals.make1dArray` |
| brody.py | `brody_dist` | 10-18 | `Ensemble.brodyAlpha`, `Ensemble.brodyDist` |
| brody.py | `brody_cdf` | 21-25 | `Ensemble.brodyCdf` |
| brody.py | `log_brody` | 28-37 | `Helpers.logBrody` |
| brody.py | `fit_brody` | 40-58 | `Brody.fitBrody` |
| brody.py | `fit_brody_mle` | 61-82 | `Brody.fitBrodyMle`, `Brody.mleObjective`, `Brody.optimise` |
| brody.py | `fit_brody_max_spacing` | 85-130 | `Brody.fitBrodyMaxSpacing`, `Brody.optimise`, `Brody.positiveDiffs`, `Brody.spacingObjective` |
| brody.py | `fit_brody_max_spacing.alpha` | 106-107 | `Brody.fitBrodyMaxSpacing` |
| brody.py | `fit_brody_max_spacing._positive_diffs` | 109-114 | `Brody.fitBrodyMaxSpacing`, `Brody.positiveDiffs` |
| brody.py | `brody_fit_evaluate` | 133-153 | `Brody.brodyFitEvaluate` |
| compare.py | `Compare.__init__` | 19-54 | `Compare.Comp`, `Compare.convertBase`, `Compare.convertCurves`, `Compare.initCompare` |
| compare.py | `Compare.correlate` | 56-68 | `Compare.correlate` |
| compare.py | `Compare.mean_sq_difference` | 70-86 | `Compare.baseLoop`, `Compare.differences`, `Compare.meanSqDifference` |
| compare.py | `Compare.mean_abs_difference` | 88-104 | `Compare.baseLoop`, `Compare.differences`, `Compare.meanAbsDifference` |
| compare.py | `Compare._test_validate` | 106-107 | not modelled: test helper, calls the modelled validation |
| compare.py | `Compare.__fast_msqd` | 109-117 | `Compare.grid` |
| compare.py | `Compare.__fast_mad` | 119-127 | `Compare.grid` |
| compare.py | `Compare.__histograms` | 129-166 | `Helpers.histLoop`, `Helpers.histograms` |
| compare.py | `Compare.__validate_curve_lengths` | 168-188 | `Compare.allSameLength`, `Compare.baseMismatch`, `Compare.validateCounts`, `Compare.validateLengths` |
| construct.py | `goe_unfolded` | 16-58 | `Analytic.edge`, `Analytic.goeUnfolded`, `Analytic.semicircle`, `Analytic.smoothGoe`, `GoeUnfolded.goeUnfoldedRun`, `RoundedDensity.semicircleFl` |
| construct.py | `goe_unfolded.__R1` | 38-42 | `Analytic.goeUnfolded`, `Analytic.semicircle`, `GoeUnfolded.goeUnfoldedRun`, `RoundedDensity.semicircleFl` |
| construct.py | `goe_unfolded.smooth_goe` | 46-49 | `Analytic.goeUnfolded`, `Analytic.smoothGoe`, `GoeUnfolded.goeUnfoldedRun` |
| construct.py | `correlated_eigs` | 61-86 | `Generate.corrIndices`, `Generate.correlateRows` |
| construct.py | `tracy_widom_eigs` | 91-138 | not modelled: raises NotImplementedError |
| construct.py | `time_series_eigs` | 142-155 | `Helpers.timeSeriesEigs` |
| construct.py | `generate_uniform` | 158-159 | not modelled: raises NotImplementedError |
| construct.py | `_generate_GOE_matrix` | 162-166 | `Generate.generateGOEMatrix`, `Generate.goeOf`, `GenerateArgs.seedArg` |
| construct.py | `_generate_GOE_tridiagonal` | 169-184 | `Generate.chiRange`, `Generate.generateGOETridiagonal`, `Generate.tridiagonalOf`, `GenerateArgs.seedArg` |
| construct.py | `_generate_GOE_tridiagonal_direct` | 187-219 | `Helpers.directMatrix`, `Helpers.generateDirect` |
| construct.py | `_generate_poisson` | 222-225 | `Helpers.generatePoisson` |
| correlater.py | `correlate_fast` | 8-17 | `Compare.corrcoef`, `Eigenvalues.correlateFast`, `RoundedSeries.correlateFastFl` |
| detrend.py | `emd_detrend` | 10-51 | `Detrend.Method`, `Detrend.Method.value`, `Detrend.detrend`, `Detrend.trendOf`, `Detrend.validate`, `Imports.body`, `Smoother.emdDelta`, `Smoother.emdDetrend` |
| eigenvalues.py | `Eigenvalues.__init__` | 33-64 | `Detrend.DetObj`, `Detrend.newEigenvalues`, `Eigenvalues.constructWarn` |
| eigenvalues.py | `Eigenvalues.generate` | 66-132 | `Generate.generate`, `Generate.generateGUE`, `Generate.goeMatrix`, `Generate.gueOf`, `GenerateArgs.generateInt`, `GenerateArgs.seedArg`, `Session.step` |
| eigenvalues.py | `Eigenvalues.from_correlations` | 134-169 | `Eigenvalues.fromCorrelations`, `Missing.correlationValues` |
| eigenvalues.py | `Eigenvalues.from_time_series` | 173-286 | `Eigenvalues.computedEigs`, `Eigenvalues.fromSeries`, `Eigenvalues.fromTimeSeries`, `Eigenvalues.mkSeriesEigs`, `Eigenvalues.trimZeros`, `Missing.finishSeries`, `Missing.trimZeros`, `RoundedSeries.computedEigsFl`, `RoundedSeries.handedFl`, `RoundedSeries.seriesValuesFl`, `RoundedSeries.trimZerosFl`, `Sparse.computedEigsSparse`, `Sparse.finishSeries`, `Sparse.fromSeriesSparse`, `Sparse.fromTimeSeriesOpt`, `Sparse.sparseEigs`, `Sparse.tril` |
| eigenvalues.py | `Eigenvalues.values` | 288-291 | `Memory.Ref`, `Objects.stepFunctionOf` |
| eigenvalues.py | `Eigenvalues.vals` | 293-296 | `Memory.Ref`, `Objects.stepFunctionOf` |
| eigenvalues.py | `Eigenvalues.eigenvalues` | 298-301 | `Memory.Ref`, `Objects.stepFunctionOf` |
| eigenvalues.py | `Eigenvalues.eigs` | 303-306 | `Memory.Ref`, `Objects.stepFunctionOf` |
| eigenvalues.py | `Eigenvalues.detrend` | 308-313 | `Detrend.eigenvaluesDetrend` |
| eigenvalues.py | `Eigenvalues.trim_report` | 315-391 | `ReportApi.trimReport` |
| eigenvalues.py | `Eigenvalues.get_best_trimmed` | 393-486 | `Report.getBestTrimmed` |
| eigenvalues.py | `Eigenvalues.trim_marchenko_pastur` | 488-584 | `Eigenvalues.marchenkoPasturWith`, `Eigenvalues.passedOrStored`, `Eigenvalues.trimMarchenkoPastur`, `Missing.trimSizes` |
| eigenvalues.py | `Eigenvalues.trim_manually` | 586-589 | `Memory.St.step`, `Report.trimManually` |
| eigenvalues.py | `Eigenvalues.trim_interactively` | 591-592 | not modelled: raises NotImplementedError |
| eigenvalues.py | `Eigenvalues.trim_unfold_auto` | 594-718 | `ReportApi.trimUnfoldAutoCall`, `Stored.trimUnfoldAutoStored`, `Unfold.trimUnfoldAuto` |
| eigenvalues.py | `Eigenvalues.unfold` | 720-808 | `Unfold.unfold` |
| eigenvalues.py | `Eigenvalues.unfold_goe` | 810-831 | `Analytic.edge`, `Analytic.goeMap`, `Analytic.semicircle`, `Analytic.smoothGoe`, `Analytic.unfoldGoe`, `RoundedDensity.semicircleFl`, `Unfold.unfold` |
| eigenvalues.py | `Eigenvalues.unfold_goe.__R1` | 817-821 | `Analytic.semicircle`, `Analytic.unfoldGoe`, `RoundedDensity.semicircleFl`, `Unfold.unfold` |
| eigenvalues.py | `Eigenvalues.unfold_goe.smooth_goe` | 825-828 | `Analytic.smoothGoe`, `Analytic.unfoldGoe`, `Unfold.unfold` |
| eigenvalues.py | `Eigenvalues.unfold_poisson` | 833-877 | `Analytic.poissonMap`, `Analytic.smoothPoisson`, `Analytic.unfoldPoisson`, `Unfold.unfold` |
| eigenvalues.py | `Eigenvalues.unfold_poisson.__R1` | 868-869 | `Analytic.smoothPoisson`, `Analytic.unfoldPoisson`, `Unfold.unfold` |
| eigenvalues.py | `Eigenvalues.unfold_poisson.smooth_poisson` | 871-872 | `Analytic.smoothPoisson`, `Analytic.unfoldPoisson`, `Unfold.unfold` |
| eigenvalues.py | `_eigs_via_transpose` | 880-970 | `Eigenvalues.eigsViaTranspose`, `Eigenvalues.transposedMatrix`, `RoundedSeries.transposedMatrixFl` |
| ensemble.py | `Ensemble.nnsd` | 15-22 | not modelled: abstract |
| ensemble.py | `Ensemble.nnnsd` | 24-31 | not modelled: abstract |
| ensemble.py | `Ensemble.spectral_rigidity` | 33-41 | not modelled: abstract |
| ensemble.py | `Ensemble.level_variance` | 43-51 | not modelled: abstract |
| ensemble.py | `Poisson.nnsd` | 57-83 | `Ensemble.gridOf`, `Ensemble.poissonDensity`, `Ensemble.poissonNnsd` |
| ensemble.py | `Poisson.nnsd_cdf` | 85-112 | `Ensemble.poissonCdf`, `Ensemble.poissonNnsdCdf` |
| ensemble.py | `Poisson.nnnsd` | 114-161 | `Ensemble.brodyAlpha`, `Ensemble.poissonNnnsd` |
| ensemble.py | `Poisson.nnnsd.brody_dist` | 142-150 | `Ensemble.brodyAlpha`, `Ensemble.poissonNnnsd` |
| ensemble.py | `Poisson.spectral_rigidity` | 163-186 | `Ensemble.Ens.spectralRigidity`, `Ensemble.poissonRigidity` |
| ensemble.py | `Poisson.level_variance` | 188-212 | `Ensemble.Ens.levelVariance`, `Ensemble.poissonLevelVar` |
| ensemble.py | `GOE.nnsd` | 216-243 | `Ensemble.goeDensity`, `Ensemble.goeNnsd` |
| ensemble.py | `GOE.nnsd_cdf` | 245-273 | `Ensemble.goeCdf`, `Ensemble.goeNnsdCdf` |
| ensemble.py | `GOE.nnnsd` | 275-313 | `Ensemble.goeNextDensity`, `Ensemble.goeNnnsd` |
| ensemble.py | `GOE.spectral_rigidity` | 315-339 | `Ensemble.Ens.spectralRigidity`, `Ensemble.goeRigidity` |
| ensemble.py | `GOE.level_variance` | 341-365 | `Ensemble.Ens.levelVariance`, `Ensemble.goeLevelVar` |
| ensemble.py | `GUE.nnsd` | 369-396 | `Ensemble.gueDensity`, `Ensemble.gueNnsd` |
| ensemble.py | `GUE.nnnsd` | 398-425 | `Ensemble.gueNnnsd` |
| ensemble.py | `GUE.spectral_rigidity` | 427-451 | `Ensemble.Ens.spectralRigidity`, `Ensemble.gueRigidity` |
| ensemble.py | `GUE.level_variance` | 453-477 | `Ensemble.Ens.levelVariance`, `Ensemble.gueLevelVar` |
| ensemble.py | `GSE.nnsd` | 481-509 | `Ensemble.gseDensity`, `Ensemble.gseNnsd` |
| ensemble.py | `GSE.nnnsd` | 512-539 | `Ensemble.gseNnnsd` |
| ensemble.py | `GSE.spectral_rigidity` | 541-566 | `Ensemble.Ens.spectralRigidity`, `Ensemble.gseRigidity` |
| ensemble.py | `GSE.level_variance` | 568-592 | `Ensemble.Ens.levelVariance`, `Ensemble.gseLevelVar` |
| exponentials.py | `derivative` | 7-18 | `Bounds.derivativeC`, `Exponentials.derivative` |
| exponentials.py | `inverse_gompertz` | 21-43 | `Exponentials.inverseGompertz` |
| exponentials.py | `gompertz` | 46-48 | `Exponentials.gompertz`, `Smoother.gompertzFn` |
| exponentials.py | `exponential` | 51-54 | `Exponentials.exponential` |
| observables/levelvariance.py | `level_number_variance` | 23-92 | `LevelVariance.levelNumberVariance`, `Session.runLevelVariance` |
| observables/levelvariance.py | `sigma_parallel` | 95-168 | `Bounds.prangeC`, `Bounds.sigmaParallelC`, `LevelVariance.sigmaParallel`, `Progress.percent`, `Progress.progInterval`, `Progress.runProgress`, `Session.streams` |
| observables/levelvariance.py | `sigma_L` | 171-275 | `Bounds.sigmaLoopC`, `LevelVariance.nWithin`, `LevelVariance.sigmaL`, `LevelVariance.sigmaLoop`, `Progress.sigmaLP`, `Progress.sigmaLoopP`, `Rigidity.rangeBelow`, `Rounded.nWithinFl`, `Rounded.rangeBelowFl`, `Rounded.sigmaLFl`, `Rounded.sigmaLoopFl`, `Session.sigmaUsed` |
| observables/rigidity.py | `spectral_rigidity` | 52-186 | `Rigidity.spectralRigidity`, `Session.runRigidity` |
| observables/rigidity.py | `delta_parallel` | 189-223 | `Bounds.deltaParallelC`, `Bounds.prangeC`, `Progress.percent`, `Progress.progInterval`, `Progress.runProgress`, `Rigidity.deltaParallel`, `Session.streams` |
| observables/rigidity.py | `delta_L` | 229-301 | `Bounds.d3SampleC`, `Bounds.deltaLoopC`, `Progress.deltaLP`, `Progress.deltaLoopP`, `Rigidity.BUF`, `Rigidity.d3Sample`, `Rigidity.deltaL`, `Rigidity.deltaLoop`, `Rigidity.rangeBelow`, `Rounded.deltaLFl`, `Rounded.deltaLoopFl`, `Rounded.rangeBelowFl`, `RoundedSample.d3SampleFl`, `Session.deltaUsed` |
| observables/rigidity.py | `_delta_grid` | 304-320 | `Rigidity.deltaGrid` |
| observables/rigidity.py | `_slope` | 323-334 | `Rigidity.slope`, `RoundedSample.slopeFl` |
| observables/rigidity.py | `_intercept` | 337-339 | `Rigidity.intercept`, `RoundedSample.interceptFl` |
| observables/rigidity.py | `_integrate_fast` | 342-352 | `Bounds.integrateC`, `Bounds.trapzC`, `Rigidity.integrateFast`, `Rigidity.trapzFrom`, `RoundedSample.integrateFastFl`, `RoundedSample.trapzFromFl` |
| observables/rigidity.py | `_sq_lin_deviation` | 357-389 | `Bounds.sqLinC`, `Rigidity.sqLinDeviation`, `RoundedSample.sqLinDeviationFl` |
| observables/rigidity.py | `_int_simps_nonunif` | 393-427 | `Bounds.intSimpsC`, `Bounds.simpsC`, `Rigidity.intSimpsNonunif`, `Rigidity.simpsFrom`, `RoundedSample.intSimpsNonunifFl`, `RoundedSample.simpsFromFl` |
| observables/step.py | `step_values` | 10-32 | `Missing.stepScalar`, `Step.StepArg`, `Step.stepValues` |
| observables/step.py | `_step_function_fast` | 35-70 | `Bounds.fillC`, `Bounds.startC`, `Bounds.stepC`, `Step.fillLoop`, `Step.lookAhead`, `Step.mainLoop`, `Step.skipLoop`, `Step.stepFunctionFast`, `Step.tailLoop`, `StepMachine.PC`, `StepMachine.start`, `StepMachine.step` |
| observables/step.py | `_step_function_correct` | 73-81 | `Step.stepFunctionCorrect` |
| plot.py | `_raw_eig_dist` | 47-118 | `Figures.params`, `Figures.plotCall`, `Figures.plotDist` |
| plot.py | `_step_function` | 121-175 | `Figures.params`, `Plots.plotSteps` |
| plot.py | `_raw_eig_sorted` | 178-233 | `Figures.params`, `Figures.sortedBody` |
| plot.py | `_unfolded_dist` | 236-307 | `Figures.plotDist` |
| plot.py | `_unfolded_fit` | 310-394 | `Plots.unfoldedFit` |
| plot.py | `_spacings` | 398-543 | `Figures.params`, `PlotData.plotSpacings`, `PlotData.spacingFormula`, `PlotData.trimSpacings`, `Plots.spacingsOn` |
| plot.py | `_brody_fit` | 546-596 | `Plots.plotBrodyFit` |
| plot.py | `_next_spacings` | 599-734 | `PlotData.plotNextSpacings`, `PlotData.trimSpacings` |
| plot.py | `_spectral_rigidity` | 737-867 | `Iters.obsCall`, `Iters.obsDraw`, `Iters.twinx`, `PlotData.plotRigidity`, `PlotData.rigidityFormula`, `PlotData.scaledL` |
| plot.py | `_level_number_variance` | 870-1017 | `Iters.obsCall`, `Iters.twinx`, `PlotData.goeExact`, `PlotData.levelVarFormula`, `PlotData.plotLevelVar` |
| plot.py | `_level_number_variance.exact` | 974-988 | `Iters.obsCall`, `PlotData.goeExact`, `PlotData.plotLevelVar` |
| plot.py | `_level_number_variance.exact.f1` | 975-976 | `Iters.obsCall`, `PlotData.goeExact`, `PlotData.plotLevelVar` |
| plot.py | `_observables` | 1020-1098 | `Figures.drawPanels`, `Figures.plotObservables` |
| plot.py | `_plot_trim_iters` | 1101-1173 | `Plots.panelOf`, `Plots.panelRows`, `Plots.plotTrimIters` |
| plot.py | `_setup_plotting` | 1176-1184 | `Figures.setupPlotting` |
| plot.py | `_kde_plot` | 1187-1234 | `Figures.plotDist`, `PlotData.kdeInput` |
| plot.py | `_handle_plot_mode` | 1237-1266 | `Figures.finish`, `Files.handlePlotMode` |
| plot.py | `_validate_bin_sizes` | 1269-1281 | `Helpers.binCountsFrom`, `Helpers.validateBinSizes` |
| plot.py | `HandlerColormap.__init__` | 1287-1295 | `Figures.stripes` |
| plot.py | `HandlerColormap.create_artists` | 1297-1311 | `Figures.stripes` |
| signalproc/clean.py | `get_signals` | 9-19 | `Detrend.getSignals` |
| signalproc/clean.py | `fill_mask` | 22-29 | `Bounds.fillMaskC`, `Detrend.fillMask`, `Detrend.maskBody` |
| signalproc/detrend.py | `DetrendMethod.validate` | 28-36 | `Detrend.validate`, `Smoother.emdDelta`, `Smoother.emdDetrend` |
| signalproc/detrend.py | `detrend` | 42-67 | `Detrend.detrend`, `Detrend.trendOf`, `Smoother.emdDetrend` |
| signalproc/detrend.py | `Detrend.__init__` | 71-72 | not modelled: empty body |
| signalproc/detrend.py | `Detrend.linear` | 74-80 | `Detrend.detrendLinear` |
| signalproc/detrend.py | `Detrend.emd` | 82-86 | `Detrend.detrendEmd` |
| signalproc/detrend.py | `Detrend.difference` | 88-93 | `Detrend.difference` |
| signalproc/detrend.py | `linear_detrend` | 96-107 | `Bounds.linearDetrendC`, `Detrend.linearDetrend`, `Detrend.linearDetrendRow` |
| signalproc/detrend.py | `mean_detrend` | 110-115 | `Bounds.meanDetrendC`, `Detrend.meanDetrend` |
| smoother.py | `SmoothMethod.validate` | 38-46 | `Smoother.validate` |
| smoother.py | `_spline_name` | 52-53 | `Smoother.splineName` |
| smoother.py | `Smoother.__init__` | 57-72 | `Convert.smootherOf`, `Objects.initSmoother`, `Objects.smootherFit` |
| smoother.py | `Smoother.fit` | 74-174 | `Objects.smootherFit`, `Smoother.FitResult`, `Smoother.PyVal.floatConv`, `Smoother.exponentialFn`, `Smoother.fit`, `Smoother.stepsOf` |
| smoother.py | `Smoother.fit_all` | 176-285 | `Smoother.fitAll`, `Smoother.fitCalls`, `Smoother.fitOne`, `Smoother.polyName`, `Smoother.splineCol`, `Smoother.splineColHeur` |
| smoother.py | `Smoother._get_smoother_names` | 287-329 | `Smoother.polyName`, `Smoother.smootherNames`, `Smoother.splineCol` |
| smoother.py | `Smoother.__validate_args` | 331-382 | `Smoother.PyVal.floatConv`, `Smoother.validateArgs` |
| trim.py | `Trimmed.__init__` | 51-61 | `EigVals.initEigVals1d`, `ReportMemory.RSt.step` |
| trim.py | `Trimmed.values` | 63-65 | `Memory.Ref`, `Objects.stepFunctionOf` |
| trim.py | `Trimmed.vals` | 67-69 | `Memory.Ref`, `Objects.stepFunctionOf` |
| trim.py | `Trimmed.unfold` | 71-107 | `Unfold.trimmedUnfold` |
| trim.py | `Trimmed.unfold_auto` | 109-167 | `Unfold.unfoldAuto` |
| trim.py | `TrimReport.__init__` | 173-248 | `Objects.mkReportFit`, `Report.mkReport`, `ReportMemory.RSt.addReport`, `ReportMemory.RSt.step`, `ReportMemory.Rep`, `Trim.trimIters` |
| trim.py | `TrimReport.trim_indices` | 250-261 | `Objects.mkReportFit`, `Report.mkReport`, `ReportMemory.RSt.step` |
| trim.py | `TrimReport.untrimmed` | 263-266 | `ReportMemory.RSt.addReport` |
| trim.py | `TrimReport.summary` | 268-301 | not modelled: returns the modelled table |
| trim.py | `TrimReport.unfoldings` | 303-315 | `ReportApi.unfoldingColumn` |
| trim.py | `TrimReport.use_trim_iteration` | 317-336 | `Trim.useTrimIteration` |
| trim.py | `TrimReport.evaluate` | 338-353 | not modelled: raises NotImplementedError |
| trim.py | `TrimReport.best_overall` | 355-451 | `Report.bestCols`, `Report.bestIndices`, `Report.bestOverall` |
| trim.py | `TrimReport.unfold_trimmed` | 453-454 | not modelled: raises NotImplementedError |
| trim.py | `TrimReport.plot_trim_steps` | 456-501 | `Objects.plotTrimSteps`, `Objects.printLines` |
| trim.py | `TrimReport.to_csv` | 503-505 | not modelled: pandas call on the modelled table |
| trim.py | `TrimReport._get_autounfold_vals` | 507-514 | `Report.autounfoldVals`, `Report.bestScoreCol`, `Report.maskedMean`, `Report.regexCols`, `Report.scoreCols`, `Stored.trimUnfoldAutoStored` |
| trim.py | `TrimReport.__get_trim_iters` | 516-579 | `Objects.mkReportFit`, `Objects.trimLoopFit`, `ReportMemory.RSt.addReport`, `ReportMemory.Rep`, `Trim.trimIters`, `Trim.trimLoop` |
| trim.py | `TrimReport.__iters_to_dataframe` | 581-660 | `Report.fillCols`, `Report.mkReport`, `Report.summaryNames`, `Report.summaryRow`, `Stored.single`, `Stored.storeReport` |
| trim.py | `TrimReport.__evaluate_unfolding` | 662-676 | `Report.evaluateUnfolding` |
| trim.py | `TrimIter.__init__` | 683-695 | `Objects.mkIterFit`, `Trim.Iter`, `Trim.mkIter` |
| trim.py | `TrimIter.inlier_length` | 697-699 | `Helpers.inlierLength` |
| trim.py | `TrimIter.outlier_length` | 701-703 | `Helpers.outlierLength` |
| trim.py | `TrimIter.proportion_kept` | 705-707 | `Helpers.proportionKept` |
| trim.py | `TrimIter.proportion_removed` | 709-711 | `Trim.Iter.proportionRemoved` |
| trim.py | `TrimIter.percent_removed` | 713-715 | `Report.percentRemoved` |
| trim.py | `TrimIter.lower_percent_removed` | 717-720 | `Report.lowerPercentRemoved`, `Trim.Iter.lowerTrimLength` |
| trim.py | `TrimIter.upper_percent_removed` | 722-725 | `Report.upperPercentRemoved`, `Trim.Iter.upperTrimLength` |
| trim.py | `TrimIter.trim_indices` | 727-731 | `Trim.Iter.trimIndices` |
| trim.py | `TrimIter.inliers` | 733-735 | `Trim.Iter.inliers` |
| trim.py | `TrimIter.is_all_inliers` | 737-738 | `Trim.Iter.isAllInliers` |
| trim.py | `TrimIter.next_iter` | 740-743 | `ReportMemory.RSt.addReport`, `Trim.Iter.nextIter` |
| trim.py | `TrimIter.summary` | 745-759 | `Plots.iterSummary` |
| trim.py | `_get_outlier_labels` | 762-783 | `Trim.clearAfterPrefix`, `Trim.clearBeforeSuffix`, `Trim.clearIfInterior`, `Trim.clearRange`, `Trim.outlierLabels` |
| unfold.py | `Unfolded.__init__` | 32-40 | `Memory.St.step`, `Unfold.Unfolded`, `Unfold.mkUnfolded` |
| unfold.py | `Unfolded.values` | 42-44 | `Memory.Ref` |
| unfold.py | `Unfolded.vals` | 46-48 | `Memory.Ref`, `Objects.unfoldedStepFunction` |
| unfold.py | `Unfolded.evaluate_smoother` | 50-56 | `Session.step`, `Unfold.evaluateSmoother` |
| unfold.py | `Unfolded.spectral_rigidity` | 58-112 | `Brody.unfoldedFitBrody`, `Session.step`, `UnfoldedApi.rigidity` |
| unfold.py | `Unfolded.level_variance` | 114-168 | `LevelVariance.levelVariance`, `Session.step`, `UnfoldedApi.levelVar` |
| unfold.py | `Unfolded.fit_brody` | 170-201 | `Brody.unfoldedFitBrody` |
| unfold.py | `Unfolded.plot_brody_fit` | 203-231 | `EnsembleCompare.ensembleCompare`, `Plots.plotBrodyFit` |
| unfold.py | `Unfolded.ensemble_compare` | 233-347 | `Compare.ensembleMetric`, `EnsembleCompare.block`, `EnsembleCompare.ensembleCompare`, `EnsembleCompare.fillMetrics` |
| unfold.py | `Unfolded.ensemble_compare.compare` | 304-315 | `Compare.ensembleMetric`, `EnsembleCompare.ensembleCompare` |
| unfold.py | `Unfolded.plot_fit` | 349-365 | `Plots.unfoldedFit` |
| unfold.py | `Unfolded.plot_nnsd` | 367-468 | `Figures.plotObservables` |
| unfold.py | `Unfolded.plot_next_nnsd` | 470-566 | `PlotData.plotNextSpacings` |
| unfold.py | `Unfolded.plot_nnnsd` | 568-570 | `PlotData.plotNextSpacings` |
| unfold.py | `Unfolded.plot_spectral_rigidity` | 572-674 | `PlotData.plotSpectralRigidity`, `Plots.plotBrodyFit` |
| unfold.py | `Unfolded.plot_level_variance` | 676-791 | `Iters.levelVarianceGiven`, `PlotData.plotLevelVariance` |
| unfold.py | `Unfolded.plot_observables` | 793-855 | `Figures.plotObservables` |
| unfold.py | `Unfolded.__get_kde_values` | 857-873 | `EnsembleCompare.kdeValues` |
| utils.py | `ConvergenceError.__init__` | 14-15 | `Imports.body` |
| utils.py | `res` | 18-19 | `Imports.body` |
| utils.py | `eprint` | 22-23 | `Imports.body` |
| utils.py | `log` | 26-27 | not modelled: console output |
| utils.py | `is_symmetric` | 31-32 | `NdArray.isSymmetric` |
| utils.py | `mkdirp` | 44-54 | `Plots.mkdirp` |
| utils.py | `make_directory` | 57-71 | `Files.makeDirectory` |
| utils.py | `make_parent_directories` | 74-85 | `Files.makeAll`, `Files.makeParentDirectories` |
| utils.py | `kahan_add` | 88-103 | `Utils.kahanAdd`, `Utils.kahanAddFl` |
| utils.py | `nd_find` | 106-111 | `NdArray.ndFind`, `NdArray.ndFindFrom` |
| utils.py | `find_first` | 114-119 | `Utils.findFirst`, `Utils.findFirstFrom` |
| utils.py | `find_last` | 122-128 | `Utils.findLast`, `Utils.findLastFrom` |
| utils.py | `flatten_4D` | 131-133 | `NdArray.flatten4D` |
| utils.py | `slope` | 136-146 | `Helpers.slope` |
| utils.py | `variance` | 149-158 | `Helpers.variance` |
| utils.py | `intercept` | 161-163 | `Helpers.intercept` |
| utils.py | `fast_r` | 166-173 | `Objects.fastR` |
