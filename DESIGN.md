# DESIGN — formal model of pxmcmc in Lean 4

## Layout

* `lean/Verif/Py.lean` — the Python/numpy fragments used by several modules (exceptions as values,
  slices, negative indexing, boolean masks, while loops with fuel).
* `lean/Verif/Model/*.lean` — the model, one file per Python module, one definition per function; every
  definition cites the file and lines it models and the simplifications made.
* `lean/Verif/Spec.lean` — the small independent specification vocabulary (proximal map, adjoint pair,
  bandlimited function, schedule, …). No model definition is used there.
* `lean/Verif/Lemmas/*.lean` — helper lemmas.
* `lean/Verif/Props/*.lean` — the property theorems, named `C<nn>_…`, each followed by an `example`
  exhibiting a concrete non-trivial case that meets its hypotheses.

## Modelling decisions

* **Numbers.** Floating point is *not* modelled (except the NaN/inf logic of C58, the NaN of C160 and the relative rounding errors of MYULA in C162 and C163): numpy `float64`/`complex128`
  arithmetic is replaced by exact arithmetic in `ℝ`/`ℂ` (generic `RCLike 𝕜` where the code serves both
  dtypes). Rounding, overflow and performance are outside the model.
* **Arrays.** Array utilities (packing, thresholding, masks, kernels, quantiles) are over `List`, with run-time
  lengths and the exceptions the code raises. Linear algebra and samplers are over `Fin n → 𝕜`.
* **Exceptions** are values of `PyErr` in `Except`.
* **Mutation/aliasing** is modelled by an explicit heap of arrays where the property is about it
  (C06, C12, C67, C98), and by state-passing otherwise.
* **External libraries** (pys2let, pyssht, healpy, astropy, h5py, scipy.sparse.linalg.inv, numpy RNG) are
  parameters; what is assumed about them is an explicit hypothesis of the theorem using it.
  The MW sampling positions of `pyssht.sample_positions` (θ_t=(2t+1)π/(2L-1), φ_p=2πp/(2L-1)) and
  `sample_length/shape` are modelled by their published formulas.
* **Randomness.** A random generator is an arbitrary state machine (`randn`, `rand`, `laplace`); runs are
  functions of it. Distributional claims (C46, C52, C97, C99) are about Mathlib measures.
* **Non-termination.** `while` loops take fuel; "run returns r" means some fuel suffices.

## Properties that the code violates

The guide's third case: for these the negation is proved with a concrete witness (`…_refuted`) and the part that
holds is proved as `…_partial`: C05, C06 (hard), C09, C11, C12 (arrays), C20, C21, C33 (error kind), C34,
C35 (covariance matrices), C37, C38 (complex data), C39, C44 (PxMALA), C49, C53, C54, C56, C57, C64, C66, C67, C68,
C74, C75, C76, C78, C84–C88, C90, C92–C94, C97, C98, C103, C106–C110, C112, C113, C117, C121, C123, C128, C130, C131, C135–C139, C142–C144, C148, C150–C152, C156. `MANIFEST.json` says for each what is false and what was proved.

## Per-property plan

| id | model | proof |
|----|-------|-------|
| C01 | `soft` on lists over `RCLike` | scalar inequality per coordinate, summed |
| C02 | same | case split on `‖x‖ ≤ T` |
| C03 | same | scalar firm non-expansiveness from the prox variational inequality, summed |
| C04 | `hard` with `mergeSort` | order statistics / counting on sorted lists |
| C05 | same | witness for ⌊Tn⌋=0; bound for distinct moduli |
| C06 | heap model of `soft`/`hard` | frame lemma; witness |
| C07–C09 | `L1` class | reduce to C01; Parseval argument; rotation witness |
| C10, C11 | `S2_Wavelets_L1*` | C01 + positivity of weights (C25); witness with unequal weights |
| C12 | heap model of the constructors | computation on the heap |
| C13–C15 | `flatten_mlm`, `expand_mlm`, Python slices | list lemmas |
| C16, C17 | recursive functions | strong induction against `Polynomial.Chebyshev` |
| C18 | constructor in `Except` | positivity of T_s, U_s at x ≥ 1; Niven's theorem for T_j(ω₁) ≠ 0 |
| C19–C21 | `_K_recursion` | unfolding; witness; counting recursion |
| C22, C23 | area functions | telescoping sums |
| C24, C25 | `weights_theta`, FFT as a sum, `mw_map_weights` | geometric sums of roots of unity; telescoping bound |
| C26 | mask loops | membership characterisation |
| C27, C28 | measurement classes | matrix adjoint |
| C29, C30 | kernel loop | loop invariant index = l²+l+m |
| C31–C34 | `WeakLensing` | mask lists by induction; composition of adjoints; shape logic; NaN-carrying element type |
| C35–C40 | `ForwardOperator`, `logpi` | case analysis; quadratic forms; derivative of a quadratic polynomial in t |
| C41–C44, C55–C57, C59 | sampler state machines | loop invariants over iteration count |
| C45 | validation function | case analysis |
| C46, C52 | Mathlib `gaussianReal`, `volume` | push-forward lemmas |
| C47 | chain step, prox | firm non-expansiveness, induction on steps |
| C48–C51, C53, C54, C58 | PxMALA state machine | invariants over histories; witnesses; C53 also: no invariance of the posterior, by comparing the flux into a half-line |
| C60–C64 | `np.quantile` (linear) on sorted lists | monotonicity/coverage of interpolation |
| C65, C66 | file as a finite map, list of write operations | induction over writes; prefix semantics |
| C67, C69 | decision parts of plotting | heap computation; slice partition |
| C68 | transform wrapper | packing isometry |
| C70 | stdout as state, body as `Except` | case analysis, induction on nesting |
| C71 | real logs | algebra |
| C72 | `np.nonzero(...).max()+1` | list lemmas |
| C73 | block loop | induction over blocks |
| C74 | quantiles of complex chains (lexicographic order) | real parts of sorted lists; witness |
| C75–C78 | decision parts of plotting and of the simulation reader | list maxima; case analysis; witnesses |
| C79 | `WeakLensing.__init__`, `cov_weight` | mask lists, square roots |
| C80, C81 | `_gradlogpi`, MYULA step | Moreau envelope: quadratic bounds from both sides, descent inequality |
| C82 | `logpi` | misfit along segments |
| C83 | the two ready-made operators | adjoint implies linear; composition; C38 |
| C84–C86 | `experiments/*/main.py`: construction of operator and prior, noise | unfolding, C10, C37, C83; witnesses |
| C87 | array shapes of `earthtopography/main.py` | broadcasting rules |
| C88, C89, C92, C93 | `experiments/*/plot.py`: file names, images of samples, MAP, noise | list induction, folds over `Option ℝ`; witnesses |
| C90, C91 | `phasevel/main.py`: data file, path matrix | lists |
| C94 | parameters of the scripts | C47; one explicit step in the dead zone |
| C95 | the three `run` loops, two track lists and verbosities | lockstep simulation of the two loops |
| C96 | `IdentityTransform`, `Identity`, `ForwardOperator`, `L1`, `samplerInit`, the `run` loops | C07, C35, C41, C43, C54 |
| C97 | the same with `T = 0`; generator yielding independent normals | linear recursion of Gaussians, product measures |
| C98 | heap of parameter objects and lists, small program language | induction over programs; witnesses |
| C99 | MYULA steps with i.i.d. noise | iterated random contractions, weak limits |
| C100, C101 | `soft`, prior objects | scalar case analysis; weighted sums |
| C102 | traces of tuned PxMALA runs | logarithms of the step sizes, Abel summation |
| C103 | `phasevelPaths` over a disk of `.npz` files | case split on the cached file; two consecutive runs as witness |
| C104 | `WL.forward`, `WL.adjoint` | `forward` written out; kernel kills the first four coefficients and no others |
| C105 | `relSqError`, `snr`, `WL.forward` | norms as sums of squares; constant weights cancel |
| C106 | `mainMask`, `wlPlotMasks` | distance to the nearer band |
| C107 | `runName`, `saveMcmc` | fixed-width fields are injective; the other files are untouched (C66) |
| C108 | `waveletCredibleIntervalRange` | counting columns, C62 |
| C109 | `wlMapSummary` on top of `plotMap` with aliasing, NaN as `none` | C67, position of the masked bands |
| C110 | `phasevelCi` | antitone widths (C60), two-sample witness |
| C111 | `diffRange`, `cbarEnd` | max/min of lists |
| C112 | `mollview`, figure manager | invariant of the manager, pigeonhole |
| C113 | `skrockStep`, `skrockTransition` | one stage is a MYULA step at a shifted point; two stages: exact coefficients and the triangle inequality; more stages: omega_1 <= 1.1/s^2 and Chebyshev bounds give norm growth of the stages (`Lemmas/SkrockExpand`) |
| C114 | `myulaRun`, `myulaStep`, `store` | covariances of the chain decay geometrically (`Lemmas/Averages.lean`); Borel–Cantelli along squares |
| C115 | `credibleIntervalRange` on the chain of `myulaRun` | C114 for ramp functions; order statistics and counts; the stationary law has no atoms and charges every interval |
| C116 | `ForwardOp.init`, `L1.init`, `samplerInit`, `myulaRun`, `credibleIntervalRange` for the denoising set-up | corollary of C96, C99, C114 and C115; the data term is `diag(1/σ²)` |
| C117 | `paramAttrs`, `topoKwargs`, `phasevelKwargs`, `wlKwargs`, `saveMcmc`, `plotHeader`, `topoPlotHeader` | C65 for what fits; the first refused attribute ends the writes; HDF5's 64 KiB limit is the hypothesis `H5Limit` |
| C118 | `credibleRegionThreshold`, `inCredibleRegion`, `logPi` array of `myulaRun` for the denoising set-up | the stationary law lives on real vectors; level sets of a strictly convex function are null, so the log-posterior has a continuous law; ramp functions of it are Lipschitz, then C114 and the quantile lemma of C115 |
| C119 | `malaRun` with `np.random.randn` and `np.random.rand` as random variables | the probability of avoiding acceptances on the thinning grid for ever satisfies a recursion; its supremum over the states is zero by Bernoulli's inequality; with tuning a compactness bound on the acceptance probability |
| C120 | `myulaRun`, `myulaStep`, `ForwardOp.init`, `L1.init`, `samplerInit` | one step from the smoothed posterior is nearly reversible (`Lemmas/Bias.lean`, `Lemmas/LangevinBias.lean`), and steps contract, so the stationary law is within `√δ·C` of it; the smoothed density differs from the posterior by a bounded factor (`Lemmas/Compare.lean`) |
| C121 | `skrockTransition`, generator as independent noise | expanding random maps: given the later noise, the first noise vectors that lead to a bounded state lie in a ball of radius O((2/3)^k) (`Lemmas/Expanding`), Borel–Cantelli; one stage: `Lemmas/Ergodic` |
| C122 | `myulaRun` (all rows saved), `ForwardOp.init`, `L1.init`, `samplerInit` | the contraction of C116/C118 applied to the start instead of the limit, bounds independent of the schedule; with C120 the posterior itself |
| C123 | `Model/Download.lean`: names, checks, address, `downloadBinary`, `convertFile`, `simScript` with every intermediate disk | names by splitting at the first non-digit; killed runs are members of the list of states; later runs by induction over reruns |
| C124 | `samplerInit`, `initArrays`, the three loop bodies and their `Event`s | invariant "every write fits" over `Reach`; `applyAll` of fitting writes keeps the shapes |
| C125 | as C114; `Lemmas/Averages.lean` with explicit constants | geometric decay of covariances, Chebyshev, `denoise_law_close` of C122, union bound over the pixels |
| C126 | `Lemmas/Coupling.lean` (chains that never move apart, contract near the origin and return to it), `Lemmas/ThresholdChain.lean` (Langevin steps with a clipped position plus the gradient of a flat quadratic), `Lemmas/ClipMap.lean` (soft thresholding as clipping) | drift condition with the squared distance to a least-squares solution, recurrence of small balls, tightness of time averages for existence, coupling for uniqueness and convergence, transported through `RealForm`; averages with probability one by the maximal ergodic inequality (`Lemmas/Birkhoff.lean`) on the space of paths (`Lemmas/PathAverages.lean`) |
| C127 | `Model/PowerPrior.lean` (`np.argmax` on complex arrays, `peak_ls`, the constructor from the tiling) on top of `Model/Prior.lean` | positions in concatenated blocks, `np.argmax` as first peak, bandlimits from C72 |
| C128 | the complex sampler for complex data (`Model/Forward.lean`, `Model/Sampler.lean`) | exact moments of a complex first-order recursion (`Lemmas/ComplexAR.lean`), schedule of C41 |
| C129 | `Model/PowerPrior.lean` (`S2L1.toPrior`), `Model/Measurements.lean` (`WL`), `Model/Experiments.lean` (`lensingSetup`) | chains of C126 with the data gradient turned by 45 degrees: `Re⟨t·Av, Av⟩ = ‖Av‖²/√2` keeps the drift monotone |
| C130 | all three samplers (`Model/Sampler.lean`) | invariant along the history of a run: lengths and realness of sample, prediction, gradient and prox; first step of the complex denoising set-up computed exactly |
| C131 | `printProgress` events of all three samplers | events split by iteration; rows saved last are never overwritten, so the line's values are those of the final arrays; SKROCK witness |
| C132 | `myulaStep`, `myulaRun`, `buildInvCov` for complex data | turned gradient is cocoercive and strongly monotone, hence one step contracts; generic contraction theory of C99/C114/C122 |
| C133 | `myulaRun`, `malaRun`, `mapIndices` | a level set of the log-posterior meets every line in a coordinate direction in finitely many points (roots of a quartic), hence is a null set for the Gaussian proposal; independence of the fresh noise |
| C134 | `myulaRun` | one step with normal noise makes the law of the state Lipschitz in the starting point for total variation; weak convergence is uniform over bounded Lipschitz functions (Lévy–Prokhorov metric) |
| C135 | `malaRun` | a row is the first accepted state at or after a thinning time; its law computed with the operators "accepted part" and "whole step" of an iteration; reversibility of the Laplace law for the random walk |
| C136 | `Model/TopoBlock.lean` (the loop marking the African block; the pyssht index functions are parameters) | pigeonhole on 101 x 101 pixels against 100 x 100 probes; nearest probe closer than half a pixel; exact thresholds 298 (nearest) and 300 (truncated) by following the probes |
| C137 | `malaRun`, for families of runs with growing `nsamples` | von Neumann mean ergodic theorem on L2 of the kept law; any start reaches an equivalent law with the first acceptance; saved rows counted on the grid; with probability one by the maximal ergodic inequality on the space of paths |
| C138 | `wlRunData`, `wlPlotObs`, `phasevelRun`, `phasevelError`, `topoRunData`, `topoTruth` over `ExpFiles` | files by name on one disk; the run's data written with one shear map / path matrix and compared with what plot.py reads |
| C139 | `Sampler`, `myulaRun`, `skrockRun`, `malaBody`; `Params.units`, `Arrays.units`, … say what converted arguments and results are | every step commutes with scaling; loop simulation lemma; the constant added by `_K_recursion` does not vanish; an explicit uniform number separates the two acceptance ratios |
| C140 | `ForwardOp.init`, `samplerInit`, the three run functions; `relist`, `Relisted`, `sigmas`, `mapPreds` say what a new list of observations means for arguments and results | sums over the new list are sums over fibres; loop simulation on the states whose predictions have the right length |
| C141 | as C140; `DataVec.extend`, `Extended`, `SigExtend` say what further observations with fixed predictions mean for the arguments | a loop on the longer list follows the loop on the shorter one; rows written so far differ by the constant misfit, which cancels in the acceptance ratio |
| C142 | as C139; `Rng.mirror`, `StartPoint.mirror`, `DataVec.mirror`, `Arrays.mirror` say what the opposite sign means for arguments, random numbers and results | every step commutes with the change of sign; the refutation follows a pixel no path crosses through the stages of SKROCK |
| C143 | as C141; `Model/Joined.lean` says what writing two problems one behind the other means for arguments, random numbers and results | every step of the joined sampler restricted to one part is a step of that part; the refutation has two one-parameter problems of which one alone rejects |
| C144 | the sampler model (no new parts); `SameRow` compares rows of two results | the histories of the two runs are joined; the refutation follows three iterations with a generator that accepts everything |
| C145 | `Model/Reorder.lean` (what renumbered arguments and results are; not code) | each step of the samplers commutes with the renumbering; sums are compared by `List.Perm` |
| C146 | `Model/ScaleMaps.lean` (experiments/phasevel/plot.py:118-134) | the maximum over all oversampled maps; titles and file names; pyssht exact at the bandlimits |
| C147 | `Model/AlgoChoice.lean` (the three main.py from the choice of the sampler on) | the results of C41, C42, C49–C51, C54 and C65 put together for each name; any other string raises |
| C148 | `Model/Conjugate.lean` (what the arguments, the noise and the results are under the other sign convention), the model of C41–C51 | simulation: each step of the loops commutes with conjugation, as in C145; PxMALA by an invariant over the reached states; refutation by comparing one MYULA step |
| C149 | `Model/Meridian.lean` (what flattened maps are for another zero meridian), the models of C07–C15, C21–C33 and C145 | weights and areas are constant along the rings; priors and runs by C145; lensing because phases commute with the kernel |
| C150 | `Model/SkyMask.lean` (astropy's change to galactic coordinates as a rotation), `buildMask` of C26 | the opposite point has the same distance from a plane; refuted by one pixel (width) and by density of the pixels on the sphere: equal neighbourhoods give equal pairs of planes, hence equal angles (frame) |
| C151 | `Model/Orthonormal.lean` (start, noise and results of the analysis problem in terms of the synthesis problem), constructors, runs of C41 and C42, the PxMALA loop | gradients of the two problems correspond under the matrix; induction over iterations (and SKROCK stages); refuted on a problem without data and threshold, with a rotation of two parameters |
| C152 | `Model/CommandLine.lean` (`argparse` and the tables of the six scripts) | induction over the words: an option that is not named keeps its value and does not influence the others; refuted with the scripts' own operator and `chain_pix` |
| C153 | `credibleIntervalRange` on the chain of `myulaRun`, in the setting of C126 | C126 with probability one for ramp functions; the steps of C115 (order statistics, no atoms, every interval charged) |
| C154 | `credibleRegionThreshold` on the `logPi` array of `myulaRun`, in the setting of C126 | `Lemmas/FlatLevels.lean`: level sets of a convex, nowhere locally constant function are null; ramps of the log-posterior are Lipschitz; then as C118 |
| C155 | `myulaRunL`, `malaRunL`, `skrockRunL` (`Model/Calls.lean`): the runs of `Model/Sampler.lean` with a log of the calls of user code | loop invariant on the log; erasing the log gives the runs of `Model/Sampler.lean` |
| C156 | base classes `Measurement`, `Transform` and `nparams=None` (`Model/Custom.lean`) with the three runs | follow the calls of a run; exceptions propagate |
| C157 | `myulaRunM`, `malaRunM`, `skrockRunM` (`Model/RunHeap.lean`): the runs of `Model/Sampler.lean` with references into a store of arrays | simulation between the runs with references and those with values; the store only grows |
| C158 | `myulaRun`, `malaRun`, `skrockRun` with the generator as a state machine | loop invariant on the state of the generator |
| C159 | `myulaRun`, `myulaStep`, `store`; denoising set-up of C97 | the chain restarted at row `k` is independent of row `k` and differs from the chain by a contraction; covariance recursion for the Gaussian case |
| C160 | `missRun`, `missMalaRun`, `missBody`, `missStep`, `missRow`, `bestPositions` (Model/Missing), `missK`, `missSkRun` (Model/MissingSkrock) | NaN entries follow the pattern of shared parameters (one step per iteration, for SKROCK one per stage); all other entries agree with `myulaRun`/`skrockRun` for any completion of the data |
| C161 | `myulaRun`, `ForwardOp.init`, `L1.init`, `samplerInit`, `credibleIntervalRange` | two runs with the same random numbers stay within an explicit distance, linear in the change of data, threshold and start; per pixel for denoising; the same for means under the two stationary laws; widths within twice the change of the samples |
| C162 | `chainStepFl`, `myulaStepFl`, `myulaRunFl` (Model/Rounded), `myulaRun` | every operation of `chain_step` followed by a rounding of relative error at most `u`; error of a step, then of a chain by contraction; a bound from the inputs alone; counterexample without identifiability |
| C163 | `softEntryFl`, `softFl`, `L1.proxfFl`, `ForwardOp.calcGradgFl`, `myulaRunOps` (Model/RoundedOps), `myulaRun` | every operation of thresholding, data gradient and step followed by a rounding of relative error at most `u`; the stored inverse covariance is diagonal and the same in both runs; error of the threshold by cases, then the chain by contraction |
| C164 | `myulaRunOps` (Model/RoundedOps), `L1.proxfFl`, `ForwardOp.calcGradgFl` | C125 for the exact run, C163_summaries for the difference; the precision is chosen after the chain length; limits of averages and interval widths (Props/RoundedLimit) from C116 and Borel–Cantelli |

## Trusted base

* Lean 4.33.0's kernel and the Mathlib definitions used in statements.
* Axioms: at most `propext`, `Classical.choice`, `Quot.sound` (checked by `vcheck`).
* The reading of the Python source recorded in each definition's comment; no code was run.

## Not modelled

Floating-point rounding (except C162, C163); matplotlib/healpy drawing. Of the `experiments/*` scripts only what C73, C84–C94, C103, C105–C112, C117, C123, C135, C136, C138, C147 and C152 name is
modelled; reading of FITS/HDF5 input and building of great-circle paths are not. C87 is about array shapes only. Also not modelled: the numerical content of the pys2let/pyssht
transforms, and the formatting of progress messages beyond the reported values.
