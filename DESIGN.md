# Formal model of keflavich/image_registration in Lean 4

(Written before the proofs; kept up to date as the model grows. The per-property status is in `MANIFEST.json`.)

## 1. Approach

The code is numerical Python on top of numpy's FFT. The model keeps the structure of each
function (same intermediate arrays, same branches, same order of checks, exceptions as values of
`Except PyErr`) but replaces floating point by exact real/complex numbers. Arrays are functions on
finite index types:

* 1-D array of length `n`  : `Fin n → α`
* 2-D image of shape (ny,nx): `Fin ny × Fin nx → α`
* N-D array of shape `s`    : `(∀ d : Fin D, Fin (s d)) → α`
* a pixel that may be NaN   : `Option ℝ` (`none` = NaN); infinities are not modelled.

Empty arrays are excluded (`[NeZero n]`): numpy's FFT raises on them.

Layers:

| layer | file | content |
|---|---|---|
| Fourier theory | `Verif/Fourier.lean` | a class for finite abelian index groups with characters, `dft`, `idft`, inversion, Parseval, convolution theorem. |
| numpy | `Verif/Numpy.lean` | `fftfreq`, `fftshift`, `ifftshift`, `linspace`, first `argmin`/`argmax`, `nan_to_num`, slices, `np.interp`, … as documented by numpy 1.20 |
| specification | `Verif/Spec.lean` | small, model-independent definitions used in the theorem statements (periodic roll, circular correlation, sum of squared residuals, "first minimiser", …) |
| model | `Verif/Model/*.lean` | one file per Python module; every definition cites file and lines |
| lemmas | `Verif/Lemmas/*.lean` | helper lemmas |
| properties | `Verif/Props/*.lean` | the property theorems, each with a non-vacuity example |
| concrete cases | `Verif/Cases/*.lean` | further concrete inputs that meet the hypotheses of named theorems |

## 2. Per property: what is modelled, how it is proved

Statements use `Verif/Spec.lean` and the `Spec.*` definitions beside the theorems; these do not mention the model of the
repository. Each `Props/*.lean` file ends with concrete cases that meet the hypotheses.

* C01 two backends as separate definitions (fftw: unnormalised transforms, explicit division by the size); round trip and equality for 1-D/2-D/N-D. Fourier inversion.
* C02–C08, C73 `shiftnd` over N-D index type, `shift2d` over 2-D; kernel `exp(-2πi Σ off·fftfreq - i phase)`; Fourier inversion, unitarity (Parseval), conjugate symmetry for odd sizes; even-size counterexample; exactness for band-limited images.
* C09–C13, C74, C87 `fourier_interp1d/2d/nd` with tagged argument shapes for the validation; `np.interp` for `data_x`; the periodic sinc kernel.
* C14–C17 `zoom1d`, `zoom_on_pixel`, `zoomnd` with exact `linspace`.
* C18–C20, C75 `dftups`, `dftups1d`, `upsample_image`, `odddftups`; embedding of the spectrum and re-indexing of sums.
* C21–C22 `correlate2d` as `real(ifft(fft(im1)·fft(ifftshift(im2[::-1,::-1]))))` (the astropy `convolve_fft` pipeline; see trusted base); convolution theorem.
* C23–C30 `chi2n_map` including NaN, zeromean, error masks, reduced, return_all; expansion of squares and re-indexing.
* C31–C38, C76, C77 `chi2_shift` end to end with the `scipy.stats` threshold as a parameter; `chi2map_to_errors`.
* C39–C43, C72, C79 `iterative_zoom` as a step function with fuel; invariants by induction on iterations; termination by a Lipschitz bound of the Fourier interpolant.
* C43, C91 `chi2_shift_iterzoom` with the unbound name `allow_huge` as a parameter: unbound as in the repository (C43), bound (C91); invariant over the zooms: the centre stays a zero of the residual.
* C95 `chi2_shift` as a function of the chi-squared map, for every boundary mode.
* C96–C98 registration under an arbitrary (deterministic) disturbance: triangle inequality for the weighted root sum of squares (C96), energy of a difference of two Fourier shifts bounded above and below (C97), Cauchy–Schwarz for the cross-correlation (C98).
* C99 aliasing: a linear functional that is exact on in-band waves and bounded by 1 on all waves, applied to an absolutely convergent series of waves.
* C100 recipe: chi2_shift followed by shift2d with the negated result; composition of C31/C33/C35/C96 with C02/C03.
* C101 error bars: two chi-squared maps differing by a factor k ≥ 1 have the same minimum and nested below-threshold regions; scaling of errors or images scales the map.
* C102 agreement: chi-squared at a scalar error is (‖a‖² + ‖b‖² − 2·overlap)/s² and the cross-correlation is the overlap, so the minimum of one is the maximum of the other.
* C103 accuracy of register_images: Cauchy–Schwarz on the noise part of the cross-correlation, the maximisation theorems of C46, membership of the nearest 1/usfac point in the refinement grid, and a two-frequency lower bound for the loss of self-correlation at a displacement. (With zeromean P(0,0) = 0; the bounds from other pairs of neighbouring frequencies cover that.)
* C104–C109 the helpers of `image_registration.tests` that the README builds its example with (`tests/registration_testing.py`: `upsample_ft_raw`, `chi2`, `make_offset_images`, `make_extended`, `make_offset_extended`, `edge_weight`, `fit_extended_shifts`, `do_n_fits`, `do_n_fits_register`, `do_n_extended_fits`, `register_accuracy_test`, `register_noise_test`): `np.random.randn` and the presence of the package `progressbar` are parameters; phases cancel under the modulus (C105), composition with C33/C35/C96 (C106), re-indexing of the shifted sum (C107), zero padding of the spectrum (C108), induction over the loop (C109).
* C110 no side effects: a second model of `chi2n_map`, `chi2_shift`, `register_images` and `cross_correlation_shifts` in which arrays are objects in a heap and `a[mask] = v`, `a /= v` write to the object; arguments are references and may coincide. Symbolic execution of the statement sequence gives the final heap; the values agree with the value model, which the other properties are about. `convolvend` and `chi2_shift_leastsq`, which do write to the caller's arrays, are C80 and C90.
* C111 rounding: a second model of `register_images` (`Model/Inexact.lean`) in which the numerical operations are parameters (`Arith`); `Spec.Accurate A δ` bounds their relative errors and nothing else is known about them. The error is propagated through preparation, FFT, cross spectrum, inverse FFT/`dftups`, modulus (ℓ2 bounds, Parseval, Cauchy–Schwarz) to `Spec.tau`; arguments of maxima are then compared. With `δ = 0` the two models agree for all inputs. Peak positions (integers, `/usfac`) stay exact; overflow, underflow and NaN arising in the arithmetic are excluded by `Accurate`.
* C112 rounding in `shift2d`/`shiftnd`: `Model/InexactShift.lean`, the same technique with the operations of shift.py as parameters (`ShiftArith`); `Spec.ShiftAccurate A δ` bounds their relative errors (transforms in root-mean-square). Errors of the argument of the exponential by interval-style pairs (`Near`), of the kernel by |e^{ia}-e^{ib}| ≤ |a-b|, of the filter by Parseval.
* C113 rounding in `correlate2d`/`chi2n_map`: `Model/InexactChi2.lean`, operations as parameters (`Chi2Arith`, which extends the `Arith` of C111; astropy's kernel scale is any nonzero number); `Spec.Chi2Accurate A δ`. Errors are carried in root-mean-square (`NearV`) up to the sums and correlations (Cauchy-Schwarz, Parseval), then entrywise (`Near`); `boundary='wrap'`, equal shapes, not reduced.
* C114 rounding in `fourier_interp1d/2d`, `zoom1d`, `zoom_on_pixel`, `chi2_shift`: `Model/InexactZoom.lean`, operations as parameters (`ZoomArith`, which extends the `ShiftArith` of C112 by quotients, `np.dot`, `np.linspace`); `Spec.ZoomAccurate Z δ`. Coordinates carried with `Near` into the phase, kernel entries by |e^{ix}-e^{iy}| ≤ |x-y|, `np.dot` relative to the sum of moduli, Cauchy-Schwarz; then the argmins.
* C115 rounding in the error bars (`chi2map_to_errors`, `chi2_shift(return_error=True)`): `chi2mapToErrorsA` in `Model/InexactZoom.lean`, same operations; the computed region is sandwiched between two exact confidence regions, the bounding box is carried with `Near`. The threshold is a given number.
* C116 rounding in `dftups`, `odddftups`, `dftups1d`, `upsample_image`: `Model/InexactUps.lean`, elementary operations; arguments of the exponential with `Near`, matrix products with `NearC`.
* C117 rounding in `register_images` with this `dftups`, operations accurate at the occurring sizes only: operations at other sizes and output points are replaced by exact ones (`clampA`), which does not change the result because the refinement never leaves `n/2 + 3/2` pixels, and C111 applies.
* C118, C119 symmetries of `cross_correlation_shifts` and `register_images` (brightness, background, common roll, exchange): the maps are transformed by a positive factor, by nothing, or by a point reflection, and `argmax` follows (`argmax_smul`, uniqueness). Exchange needs a unique peak (`Spec.ClearMatch`), because `argmax` breaks ties by position.
* C120 transposition: the discrete Fourier transform, the correlation, the chi-squared map and the interpolation commute with the exchange of the two index components (`sum_transpose`, `e_swap`); `argmax`/`argmin` follow where the optimum is unique.
* C121 size of the sub-pixel correction and its stability: at an interior maximum the slopes are at most half the curvatures (`localFit_peak`); a disturbance changes every entry of the correlation map by at most ε (Cauchy–Schwarz) and hence the five derivatives by multiples of ε (`localFit_add`), and the quotient by the bound of `step_close`. Unboundedness: correlating with a point returns the image (`xcorr_point`), so the map can be chosen freely.
* C122 `compare_methods`, `error_test`, `run_tests`, `determine_error_offsets` (`Model/TestingMore.lean`): loops over the models of the three registration functions; `C48_layout` and `C36_layout` give totality of two of the three calls, so success depends on `cross_correlation_shifts` only.
* C123 rounding in `cross_correlation_shifts`: `Model/InexactCC.lean`, operations as in C113 (`Chi2Arith`); the map is a quotient of C113's correlation, the derivatives and products of derivatives are carried entrywise with `Near` (`localFitA_near`, `numden_near`), the quotient by `quot_near`; defaults only (`maxoff=None`, `gaussfit=False`, `return_error=False`), size check of astropy left out.
* C124 noise and rounding together in `chi2_shift`: the near-optimality of C114 (residual within `2·zoomErr` of the best grid point) put into the triangle inequality of C97 (`near_best_slack`, `position_of_l2`); whole-pixel part from the integer grid of `upsample_factor=1` and `zoomErr_ge`. `Props/InexactNoise.lean`.
* C125 `convolvend` over shared state (`Model/ConvShared.lean`): a call is a program (a tree of accesses to the two globals and to array objects), a schedule a list of thread numbers. Any schedule: an inductive invariant `Safe` (the call ends with the right result whatever the globals are bound to, as long as the arrays are the initial ones; all FFT backends are the same function, C01), preserved by every step of every call. Histories: run lemma for one call from any module state, induction over the list. Races: explicit schedules. Trusted: one access (a global lookup or rebinding, one numpy read or masked assignment) is atomic; the `normalize_kernel` callback touches no shared array. `Lemmas/ConvShared.lean`, `Lemmas/ConvSafe.lean`, `Lemmas/ConvRun.lean`, `Props/ConvShared.lean`.
* C126 random noise in `chi2_shift`: the noise is a family of real random variables on any probability space (Mathlib measure theory). A deterministic lemma (`clear_best`) reduces a wrong answer to one of finitely many events `D_e ≤ 2 Σ noise·(difference)/σ²`; union bound, then Chebyshev, or Hoeffding's inequality for sub-Gaussian variables. The event of a wrong answer need not be measurable: its outer measure is bounded. `Props/RandomNoise.lean`.
* C127 random noise in `register_images`, `cross_correlation_shifts` and the sub-pixel answers: the same (`register_clear_peak`), and Markov's inequality for the norm of the noise in C97, C98, C103, C121. `Props/RandomRegister.lean`.
* C128 optimality of `chi2_shift`: no relation between the images is assumed. The zoom grid of factor 1 (and of the factors named in `Spec.gridHasWhole`) contains the map pixel of the coarse minimum, where the interpolant equals the map; the answer is the grid minimum. The likelihood form uses Mathlib's `gaussianPDFReal`. `Props/Optimal.lean`.
* C129 convergence with the upsampling factor (`Props/Converge.lean`): the search grid of `chi2_shift` (factor at least the number of rows) has a point within `1/(2u)` of the truth whenever the coarse minimum is the rounded truth (also for even sizes, where the grid is displaced by half a pixel); combined with the accuracy bounds C97 and C103 this gives the rates; the conditions are proved to hold for sums of a constant and one wave per axis.
* C130 integer images (`Model/IntImages.lean`, `Props/IntImages.lean`): `im**2` and `image - minmax(image)` computed in the dtype (two's complement or modulo `2^bits`), everything else as in the float model; the wrapped map is the float map plus an explicit discrepancy, everything `chi2_shift` does after the map is invariant under adding a constant, and the two failures are exhibited on explicit 8-bit images. Integer error arrays are not modelled.
* C131 running time of iterative_zoom, and iterative_zoom in inexact arithmetic (`Model/InexactIterZoom.lean`, `Props/IterZoomBound.lean`, `Props/InexactIterZoom.lean`): the trigonometric interpolant is Lipschitz with constant `π·sqrt(Σ(x-mean)²)`, so the spread of a zoomed view falls as `1/zoomstep^k` and the loop condition fails; the same with the rounding errors of C117 (kernel, FFT, coordinates, differences) for every arithmetic meeting `Spec.ZoomAccurate`.
* C132 README recipe in floating point (`Props/InexactRecipe.lean`): C114 (near-optimal grid point), the Lipschitz bound of Fourier shifts for the rounding of the two numbers handed over, and C112 for the shift itself; the existence of a sufficient accuracy by continuity of the explicit bounds at 0.
* C133 moving an image and registering again (`Props/Again.lean`): the chi-squared map of a rolled image is the rolled map, so its interpolant is the translated interpolant (periodic), and the unique coarse minimum moves along; the passes by induction from C128. The parity argument of C33 gives the even/even finding.
* C134 the same for register_images (`Props/RegisterAgain.lean`): the modulus of the Fourier-interpolated cross-correlation of a moved image is the translated, periodic function, so the `ClearMatch` of C119 is translated.
* C135 the same for cross_correlation_shifts (`Props/CrossCorrAgain.lean`): the correlation map of a rolled image is the rolled map; away from the border the Taylor step sees the same 3x3 values. A roll that takes the peak to the first row gives the ValueError of C53.
* C136 the same for the default `upsample_factor='auto'` (`Props/AutoAgain.lean`): the extent of the region below the threshold is unchanged when all its pixels move by the same integer vector (`regionSize_roll`), so the same factor is chosen and C133's argument applies. The deviation: take two neighbouring columns to the two ends of the map, so that the measured extent is the whole map (C35).
* C137 what the error bars cover, `C137_region` (grid points within the threshold lie within twice the error bars), `C137_small_noise`, `C137_coverage`, `C137_coverage_exp`, `C137_coverage_gaussian` (`Props/Coverage.lean`): the chi-squared at the grid point of the true displacement exceeds the minimum at `e` by `2⟨noise, w_e⟩ - D_e`; union bound over the displacements the grid can hold, Chebyshev or sub-Gaussian tail for each. The factor 2 is real: the reported error is half the width of the one-sigma region, which need not be centred on the best point.
* C138 the returned map as a log-likelihood, `C138_likelihood_map`, `C138_maximum_likelihood` (odd sizes), `C138_even_not_ml` (`Props/Likelihood.lean`): the map value is the squared residual of the complex Fourier shift (C31); split it into real part (Gaussian log-density) and imaginary part (zero for odd sizes, by Hermitian symmetry).
* C139 mirrored images, `C139_shift2d`, `C139_rot180`, `C139_shift2d_real`, `C139_correlate2d`, `C139_chi2n_map`, `C139_chi2map_to_errors`, `C139_chi2_shift` (`Props/Mirror.lean`), `C139_register_images`, `C139_register_rot180`, `C139_cross_correlation_shifts` (`Props/MirrorCC.lean`), `C139_checker`, `C139_even_deviation` (`Props/MirrorEven.lean`): a flip conjugates a filter with the reflection of the frequencies; for an odd size `fftfreq` is odd, so the shift kernel is reflected; for real arrays the full reflection is a complex conjugation. The deviation is the corner frequency of an even-by-even array, multiplied by `cos(π(dx+dy))`.
* C140 Gaussian stars, `C140_shiftnd`, `C140_interp1d`, `C140_zoom1d`, `C140_periodic`, `C140_test_1d`, `C140_test_2d`, `C140_test_zoom`, `C140_wraps` (`Props/Gauss.lean`), `C140_interp2d`, `C140_zoom_on_pixel`, `C140_shift2d` (`Props/Gauss2.lean`): Poisson summation (Mathlib's `Complex.tsum_exp_neg_quadratic`) gives the Fourier series of the periodic sum of stars, C99's aliasing bound applies to that sum, and the difference between the star and the sum is bounded by a geometric series; products over the axes; numerical bounds on exp and pi for the test scene.
* C141 Registering a Gaussian star, `C141_register`, `C141_register_example` (`Props/StarRegister.lean`, `Lemmas/StarCorr.lean`): the self-correlation of a sampled star is `pi sigma^2 exp(-t^2/4 sigma^2)` up to an explicit relative error (Poisson summation for the overlap, C140 for the Fourier interpolation); subtracting the mean lowers it by a constant; C103 then compares the reported displacement with the nearest grid point, and its margin condition is proved from the same law.
* C142 chi2_shift on a Gaussian star, `C142_chi2_star`, `C142_chi2_star_example` (`Props/StarChi2.lean`): the chi-squared map of scalar error is an affine function of the correlation; the law of C141 locates its integer minimum within half a pixel plus `tau` of the star, the zoomed grid therefore contains a point within `g` on each axis, and the reported point is at least as good.
* C143 A Gaussian star in random noise, `C143_star_in_noise`, `C143_star_in_noise_example` (`Props/StarNoise.lean`): the difference of the chi-squared values of two displacements is a linear form of the noise whose norm is the distance between the two displaced stars, hence by the law of C141 proportional to the displacement; a union bound over the finitely many pairs that `chi2_shift` can compare (each whole pixel with the nearest whole pixel, each grid point with the nearest grid point) bounds all of them at once, and `noisy_dist` turns the comparison into a distance.
* C144 The true displacement of a star, `C144_register_true`, `C144_chi2_range`, `C144_chi2_true`, `C144_noise_true` with examples (`Props/StarTrue.lean`): the ranges of the results (C45; the whole-pixel displacement of `chi2_shift` and the reach of its zoomed grid) exclude every other representative modulo the frame once the displacement is less than half of the frame minus that reach (`no_wrap`).
* C145 A stack of noisy exposures, `C145_register_stack`, `C145_chi2_stack` with examples (`Props/Stack.lean`): both images of a pair are written as the moved scene plus a disturbance; the correlation is the autocorrelation of the scene, displaced, plus three cross terms bounded by Cauchy-Schwarz, so `fit_recovers_of_peak` applies; for `chi2_shift` the second exposure is the first one rolled plus a disturbance of norm at most 2v and C96 applies; consistency follows modulo the frame, alignment by C02.
* C146 Any `usfac`, any `maxoff`, `C146_agree`, `C146_zero`, `C146_up_to_two`, `C146_above_two`, `C146_range`, `C146_fraction_never_whole`, `C146_negative_maxoff_none`, `C146_negative_maxoff_mirror`, `C146_negative_maxoff_zero` with examples (`Model/RegisterAny.lean`, `Props/RegisterAny.lean`): the same code modelled for a real `usfac` and an integer `maxoff` (Python slice bounds), shown to be `registerImages` on the documented arguments; the refinement is the one of C46 with `⌈1.5·usfac⌉` points; the slices are compared index by index.
* C147 Bad pixels, `C147_register_nan`, `C147_chi2_nan`, `C147_blanked_register`, `C147_blanked_chi2`, `C147_hot_register`, `C147_hot_chi2`, `C147_ray_register`, `C147_ray_chi2` (`Props/BadPixels.lean`), `C147_hot_half`, `C147_hot_fine` (`Props/HotAny.lean`) with examples: NaN is replaced by 0 before anything else, so blanking is a disturbance and C145 applies; a hot pixel is the scene of C145 and the rest the disturbance; a cosmic ray adds `A` times image 1, displaced, to the correlation, the rest is bounded by Cauchy-Schwarz; for `usfac ≥ 2`, half a pixel away the interpolated correlation of a bright pixel with itself is at most `1/√2` of its peak, since two pixels of the displaced image have the same modulus and the energy is conserved; within a pixel it falls at least like `1 - d²/2` (closed form of the sum of phases, concavity of the sine).
* C148 Marked pixels, `C148_marked_is_blanked`, `C148_pinned`, `C148_units`, `C148_blanked_units` with an example (`Props/MaskErr.lean`): the two programs are compared step by step; at any displacement but 0 one marked pixel alone contributes `μ²`.
* C149 Smoothing, `C149_flux_and_norm`, `C149_roll`, `C149_range`, `C149_order`, `C149_smooth_then_register` with examples (`Props/Smoothing.lean`): with periodic boundaries the result is a combination of rolled copies of the array, which commute; the range follows from C63 (a weighted mean), the registration from C44.
* C150 Low resolution, `C150_roll`, `C150_blocks`, `C150_mean_range_energy`, `C150_register`, `C150_chi2`, `C150_remainder`, `C150_register_example` with examples (`Props/LowRes.lean`): block indices under a move by a multiple of f, Cauchy-Schwarz on the blocks, then C145 for the low-resolution exposures.
* C151 Resampling, `C151_linear`, `C151_roll`, `C151_transpose`, `C151_stable`, `C151_upsample_conserves`, `C151_upsample_twice`, `C151_zoom_conserves`, `C151_zoom1d_conserves` with examples (`Props/Resample.lean`): the spectrum of a sampling finer than the pixels is the spectrum of the image padded with zeros, so sums, energies (Parseval) and the interpolant are those of the image.
* C152 Registering upsampled images, `C152_upsampled_roll`, `C152_register_upsampled`, `C152_register_upsampled_odd` with an example (`Props/UpRegister.lean`): the interpolant of the moved image is the moved interpolant, so the fine samplings differ by a roll; the low frequencies of the real part of the fine image are those of the image, so C44 and C33 apply to it.
* C153 Convolution algebra, `C153_linear`, `C153_kernel_linear`, `C153_impulse`, `C153_adjoint`, `C153_mirror`, `C153_monotone`, `C153_twice` with examples (`Props/ConvAlgebra.lean`): from the sums of C61 and C63; what kernel pixel `q` sees is the one array pixel at the displacement of `q` from the kernel centre, a relation that is symmetric up to the sign of the displacement, is kept by mirroring when the kernel size is odd, and adds up when two kernels are composed.
* C154 Mirrored images resampled, `C154_interp`, `C154_zoom`, `C154_zoomnd`, `C154_upsample`, `C154_zoom1d` with examples (`Props/MirrorResample.lean`): a flip changes each Fourier coefficient by the phase of the end pixel and the sign of the frequency; for a real image the coefficient of the opposite frequency is the conjugate, which also covers the Nyquist frequency of even sizes.
* C155 Registering a star in random noise, `C155_star_in_noise` and, without multiples of the frame, `C155_true`, with examples (`Props/StarNoiseRegister.lean`, `Props/StarNoiseAnswer.lean`, `Props/StarNoiseTrue.lean`): the two stages of the function compare moduli of the correlation at grid points; at every grid point the noise of the correlation is a fixed linear combination of independent sub-Gaussian pixels whose coefficients have an energy proportional to the distance of the point from the true one, so the union bound over the grid costs a factor `usfac²·N` in probability but no loss of accuracy.
* `Props/Cases.lean` holds further concrete cases (no new theorems of the list): it instantiates theorems of C01-C74, C91, C120, C129, C139 whose hypotheses are not exercised by an example in their own file.
* C92–C94 `boundary='fill'`: the size after padding is a parameter (`pad`), of which only `pad ≥ size of im1 + size of im2` along each axis is assumed; the periodic correlation of the padded arrays is a linear correlation; chi-squared as a sum over the plane; a nonzero image with bounded support has no period.
* C44–C49, C88 `register_images`/`dftregistration` branch by branch; uniqueness of the maximum by Cauchy–Schwarz.
* C89, C90 `chi2_shift_leastsq` with lmfit, `map_coordinates` and FFTs of infinities as parameters; energy argument as for C44.
* C50–C53, C78 `cross_correlation_shifts`, `second_derivative`, `np.gradient`; the Gaussian fitter is a parameter.
* C54–C57 `downsample*`; name-resolution failures modelled as raised errors.
* C58–C60 `make_kernel`. C61–C63, C80, C81 `convolvend` in N dimensions.
* C64–C71, C82–C86 FITS helpers with files, WCS and reprojection as parameters; headers live in a heap so that changes of the arguments are visible. The noise estimates in C69/C71 are specified independently (`Lemmas/Stats.lean`: median by counting, MAD, standard deviation).

## 3. Trusted base

* Lean 4.33 kernel; Mathlib; axioms at most `propext`, `Classical.choice`, `Quot.sound` (no other axiom is used by any theorem; `vcheck` replays every module).
* Exact arithmetic instead of IEEE floats, except in C111, C117 (`register_images`), C112 (`shift2d`, `shiftnd`), C113 (`correlate2d`, `chi2n_map`) and C114, C115 (`fourier_interp1d/2d`, zooms, `chi2_shift`, `chi2map_to_errors`) and C116 (`dftups`, `upsample_image`), where the operations have bounded relative errors (no underflow). In C111–C115 one bound is assumed for all array sizes, although the proofs use it only at the sizes that occur in the call; C116 and C117 make this explicit. No statement about overflow or speed. Infinities are not modelled, except in `cross_correlation_shifts` (`Fl`), where a division by 0 can be returned.
* numpy semantics as written in `Verif/Numpy.lean` and in the headers of the model files (numpy 1.20.3 as pinned in `environment.yml`, Python ≥ 3.7). In particular indexing with a list of slices (`array[[slice, slice]]`) is still allowed in numpy 1.20.
* `astropy.convolution.convolve_fft` is external; its pipeline is modelled after the repository's own ancestor of it, `fft_tools/convolve_nd.py`; the 1 GB check (`allow_huge`) is modelled by the size in complex128. Of its padding rule for `boundary='fill'` only `Spec.padsEnough` is used. Other boundary strings are not modelled (their treatment depends on the astropy version).
* Parameters, about which nothing is assumed unless a theorem says so: `np.random.randn`, `scipy.stats` thresholds, the agpy Gaussian fitter, the WCS library, the FITS reader, `reproject`, the registration method given to `register_fits`, lmfit.
* The reading of the Python source by the author: nothing is extracted mechanically.

## 4. What is not modelled

* printing, plotting (`verbose` beyond its effect on exceptions, `ploteach`, `DEBUG`), warnings, timings, the threads inside fftw (the thread count is an argument that has no effect: C01, C48; calls from several threads: C125).
* `hcongrid.py` (re-exports an external package), `conftest.py`, `setup*.py`, `_astropy_init.py`, documentation; of `tests/` everything but the helpers listed under C104–C109 and C122 (pytest cases, plotting, and `measure_expected_offsets.py`, which cannot be imported: its relative imports name modules that are not in its package).
* empty images (`NeZero`), object arrays, integer overflow (except in C130: pixel arithmetic of integer images in `chi2n_map`, `chi2_shift` and `iterative_zoom`), masked arrays (their mask is dropped by `np.asarray`, which the model of `convolvend` reflects).

## 5. Deviations from the documentation, found while modelling and stated as theorems

| where | what | theorem |
|---|---|---|
| `chi2n_map`, `chi2_shift` on integer images with `zeromean=False` | the squares wrap: chi-squared can be negative, and with an error array the shift can be wrong | C130_uint8_negative, C130_uint8_wrong_shift |
| `iterative_zoom(…, minmax=np.max)` on unsigned images | the first difference wraps: may stop before the first zoom | C130_iterative_zoom_max_unsigned |
| `shift`, real data of even size | not invertible for sub-pixel shifts (Nyquist term) | C03_real_even_not_invertible |
| `upsample_image` | returns complex values although documented as real | C19 |
| `zoom_on_pixel`, even output size | no output pixel is on the requested pixel | C16_even_never_on_pixel |
| `chi2_shift`, even sizes and even upsampling factors | the grid contains no whole pixel: identical images are reported as displaced by at least `1/(2 upsample_factor)` | C133_even_factor_never_whole |
| `chi2_shift`, odd sizes and large upsampling factors | the grid contains no whole pixel: a whole-pixel roll is not recovered exactly | C33_odd_large_factor_never_whole |
| `chi2_shift`, integer `upsample_factor` on non-square images | only the number of rows is compared with the factor: transposing the images can change the grid | C120_rows_decide |
| `chi2_shift` errors | `nfitted` and `max_nsig` have no effect on the reported errors (always 1 sigma of a two-parameter fit) | C37_chi2_shift_extent |
| `chi2_shift_iterzoom` | NameError (`allow_huge`) on every call with images of the same shape; hence the default of `register_fits` fails | C43, C70_default_method |
| `chi2_shift_iterzoom`, if `allow_huge` is supplied | half a pixel too much along even axes; the returned grid is displaced by half a pixel the other way | C91 |
| `iterative_zoom` | `zoomstep=1` never ends; even `zoomshape` may lose the extremum; NaN is a ValueError | C40–C42, C79 |
| `register_images` | the registered image is rolled by half the image, and is a modulus | C49 |
| `register_images(maxoff=0)` | no limit; for `usfac=2` the limit is half of `maxoff` | C47 |
| `cross_correlation_shifts` | half a pixel offset for odd sizes; correction is not the stationary point; x error from the y curvature; `maxoff` a TypeError; peak in first row/column a ValueError; `errim` unused | C50, C51, C53, C78 |
| `cross_correlation_shifts` | for every pair of images with a correlation peak some relative position raises ValueError | C135_some_position_fails |
| `chi2_shift(upsample_factor='auto')` | the resolution depends on where the best match lies: a region cut by the edge of the map is measured as wide as the map, and the grid becomes as coarse as whole pixels | C136_resolution_depends_on_position |
| `cross_correlation_shifts` | the "sub-pixel" correction is unbounded (slope along x divided by curvature along y) | C121_step_unbounded |
| `chi2_shift_leastsq` | TypeError (float slice bounds) in its default configuration; infinities written into the caller's error array | C89_default_fails, C90 |
| `correlate2d` | docstring: "cropped to the largest of each dimension of the input images"; the result always has the shape of `im1` | C92 |
| `chi2n_map(boundary='fill')` | a scalar error and a constant error image of the same value give different maps | C93_scalar_vs_image |
| `second_derivative` | sign of the mixed derivative | C52 |
| `downsample_cube`, `downsample_1d`, `smooth`, airy kernels | cannot complete | C57 |
| `make_kernel` boxcar wider than the axis | not centred (negative slice start) | C60_boxcar_too_wide |
| `make_kernel`, gaussian of width 0, empty tophat | NaN kernels | C58 |
| `convolvend` | kernel NaNs are zeros before normalisation; `interpolate_nan` ignored for an unnormalised kernel; NaN `fill_value` is a ValueError; a complex kernel of the caller that is normalised loses its NaNs, and a call that raises leaves zeros in place of NaNs in complex arrays | C61, C63, C80 |
| `header_overlap` | one pixel less than the image for an image with itself; the union of disjoint images has 0 pixels; first half pixel lost; longitudes outside for `max_separation < 180` | C82, C65, C83, C66_small |
| `get_cd` | None for a zero diagonal | C67 |
| `register_fits(errfile, header=)` | TypeError | C84 |
| `cross_correlation_shifts_FITS` | `sigma_cut` has no effect with NaN in the image (NaN threshold) | C71 |
| `tests.make_offset_extended`, `do_n_extended_fits` | `noise_taper=True` and `unsharp_mask=True` never complete, `zeropad>0` is a TypeError, `doplot=True` an UnboundLocalError | C106_taper, C109 |
| `tests.do_n_extended_fits`, `register_noise_test`, `register_accuracy_test` without `progressbar` | one turn of the loop only / TypeError | C109 |
| `tests.register_accuracy_test` | rows are (y, x) although named (dx, dy) | C109_accuracy_test |
| `tests.run_tests`, `tests.determine_error_offsets` | never return | C122_run_tests, C122_determine_error_offsets |
| `tests.error_test` | its third value mixes x and y and adds instead of subtracting | C122_error_test |
| `tests.chi2` | compares with the modulus of `im2`; for `upsample>1` a complex number for a corner of the image only | C107 |
| `convolvend` with complex arrays that contain NaNs | not thread-safe: overlapping calls may silently treat NaNs as zeros or raise ValueError | C125_race_silent, C125_race_error |
| `tests.upsample_ft_raw` | fails for odd sizes; zero frequency misplaced unless `zoomfac=2` | C108 |
| `fft_tools/tests/test_shift.py:23,47` | `np.abs(sg-thr < 0.05)` bounds the error from above only (misplaced parenthesis); the two-sided claim holds | C140_test_2d |
| `shift2d`, both sizes even, real images | mirroring the image and the sign of one shift does not mirror the result unless a shift is a whole number (corner frequency) | C139_even_deviation |
| `chi2_shift`, even sizes, `docs/index.rst` (“statistically equivalent” to maximum likelihood) | the energy of the imaginary part of the Fourier shift is added to chi-squared: the answer need not be the maximum-likelihood point of the grid | C138_even_not_ml |
| `register_images(usfac<=2)` | negative and fractional `usfac` are accepted and treated as `usfac=2`, with `1/usfac` as error; negative with `return_registered` an UnboundLocalError | C146_up_to_two |
| `register_images` with a fractional `usfac` | most whole-pixel displacements cannot be reported | C146_fraction_never_whole |
| `register_images(maxoff<0)` | no limit, a limit counted from the far end, or `[0, 0]` for every pair of images | C146_negative_maxoff_none, _mirror, _zero |
| `chi2n_map`, `chi2_shift`: 0 or NaN in the error image | such pixels are not left out but get the value 0 and the error 1; in a small enough unit one of them forces the answer `[0, 0]` | C148_marked_is_blanked, C148_units |

## 6. Testing the theorems against wrong programs

`seeded/LOG.jsonl` records edits of the model (one realistic bug each) and the theorems that then fail. Edits that at first went
unnoticed led to new or tightened theorems (`theorems_tightened`). A failing helper lemma counts as a failure of the property
theorems that rest on it; since a helper that characterises a definition fails on every edit, the statements of the property
theorems were also reviewed by hand for behaviour they leave open or specifications that share helpers with the model.
