{"id": "C01", "title": "FFT backends are interchangeable and inverse to each other", "statement": "The pair (fftn, ifftn) that get_ffts returns satisfies ifftn(fftn(x)) = x and fftn(ifftn(x)) = x, and the values do not depend on whether fftw3 is importable, on use_numpy_fft or on nthreads.", "quantifier": "every configuration (fftw present/absent, use_numpy_fft, nthreads), every 1-D, 2-D and N-D array of every size", "why_tests_cant": "the fftw branch is not even importable on most machines; tests exercise one configuration", "anchors": ["image_registration/fft_tools/fast_ffts.py:get_ffts", "image_registration/fft_tools/fast_ffts.py:fftwn", "image_registration/fft_tools/fast_ffts.py:ifftwn"]}
{"id": "C02", "title": "A whole-pixel shift is exactly a periodic roll", "statement": "shiftnd(data, offset) (and shift2d) with integer offsets returns data rolled periodically: output[i] = data[i - offset mod shape], for the real and for the complex return mode.", "quantifier": "every array size (odd and even, one pixel upwards), every pixel content, every dimension count, every integer offset vector (negative, larger than the image)", "why_tests_cant": "tests sample a few sizes, contents and offsets; the claim is for all of them", "anchors": ["image_registration/fft_tools/shift.py:shiftnd", "image_registration/fft_tools/shift.py:shift2d"]}
{"id": "C03", "title": "Sub-pixel shifts compose and can be undone", "statement": "Complex-valued shifts compose: shifting by a then by b equals shifting by a+b, so shifting by -a undoes a shift by a. With the default return_real=True the same holds when every axis length is odd; for even lengths it can fail (the Nyquist component loses amplitude).", "quantifier": "every array size (odd and even, one pixel upwards), every pixel content, every pair of real offset vectors", "why_tests_cant": "float tolerances in tests hide the even/odd distinction; the set of offsets is uncountable", "anchors": ["image_registration/fft_tools/shift.py:shiftnd", "image_registration/fft_tools/shift.py:shift2d"]}
{"id": "C04", "title": "Shifting conserves flux and energy", "statement": "The sum of all pixels of the shifted image equals the sum of the input (phase=0) for every real offset; the sum of |pixel|^2 of the complex-valued result equals the energy of the input for every offset and phase; for return_real=True the energy never exceeds the input energy.", "quantifier": "every array size (odd and even, one pixel upwards), every pixel content, every real offset", "why_tests_cant": "tests sample a few sizes, contents and offsets; the claim is for all of them", "anchors": ["image_registration/fft_tools/shift.py:shiftnd"]}
{"id": "C05", "title": "Shift is linear in the data and periodic in the offset", "statement": "shift(a*x + b*y) = a*shift(x) + b*shift(y), and adding the axis length (any integer multiple) to an offset does not change the result.", "quantifier": "every array size (odd and even, one pixel upwards), every pixel content, every real offset and coefficients", "why_tests_cant": "tests sample a few sizes, contents and offsets; the claim is for all of them", "anchors": ["image_registration/fft_tools/shift.py:shiftnd"]}
{"id": "C06", "title": "shift2d and shiftnd agree; offset/axis pairing is by position", "statement": "shift2d(data, dx, dy, ...) equals shiftnd(data, (dy, dx), ...) in every return mode. shiftnd pairs offsets with axes in order: surplus offsets are ignored, missing trailing offsets act as 0.", "quantifier": "every 2-D image, every offset, phase and return flag; every offset tuple length", "why_tests_cant": "tests sample a few sizes, contents and offsets; the claim is for all of them", "anchors": ["image_registration/fft_tools/shift.py:shift2d", "image_registration/fft_tools/shift.py:shiftnd"]}
{"id": "C07", "title": "NaN pixels are zeros for the shift functions", "statement": "shift2d/shiftnd of an image with NaN pixels equals the shift of the image with those pixels replaced by 0 (so no NaN spreads over the output).", "quantifier": "every image with any set of NaN pixels, every offset", "why_tests_cant": "tests sample a few sizes, contents and offsets; the claim is for all of them", "anchors": ["image_registration/fft_tools/shift.py:shiftnd", "image_registration/fft_tools/shift.py:shift2d"]}
{"id": "C08", "title": "Return modes and phase of the shift functions", "statement": "return_real takes precedence over return_abs; the real mode is the real part and the abs mode the modulus of the complex mode; phase multiplies the complex result by exp(-i*phase); for odd axis lengths, phase 0 and real input the complex result is already real.", "quantifier": "every array size (odd and even, one pixel upwards), every pixel content, every offset, phase and flag combination", "why_tests_cant": "tests sample a few sizes, contents and offsets; the claim is for all of them", "anchors": ["image_registration/fft_tools/shift.py:shiftnd"]}
{"id": "C09", "title": "Fourier interpolation passes through the samples and is periodic", "statement": "fourier_interp1d(data, x) at an integer coordinate x returns data[x mod n], for every coordinate x it equals the value at x + n*k (real part), and it never raises for coordinates outside the array.", "quantifier": "every 1-D array, every coordinate list", "why_tests_cant": "tests sample a few sizes, contents and offsets; the claim is for all of them", "anchors": ["image_registration/fft_tools/scale.py:fourier_interp1d"]}
{"id": "C10", "title": "Fourier interpolation is exact for band-limited signals", "statement": "If the samples come from a cosine/sine (or complex exponential) of integer frequency |k| < n/2, fourier_interp1d returns the exact value of that function at every real coordinate; by linearity the same for every trigonometric polynomial below Nyquist.", "quantifier": "every n, every frequency below Nyquist, every real coordinate", "why_tests_cant": "uncountably many coordinates, all sizes", "anchors": ["image_registration/fft_tools/scale.py:fourier_interp1d"]}
{"id": "C11", "title": "2-D Fourier interpolation is separable, passes through the samples, and all coordinate formats agree", "statement": "fourier_interp2d at a pair of integer coordinates returns the pixel; passing an ndim x [n,m] index cube whose coordinates vary along their own axis gives the same result as passing the two coordinate vectors; fourier_interpnd on 2-D data equals fourier_interp2d; the 2-D result equals 1-D interpolation along x of 1-D interpolation along y (complex mode).", "quantifier": "every 2-D image, every pair of coordinate vectors", "why_tests_cant": "tests sample a few sizes, contents and offsets; the claim is for all of them", "anchors": ["image_registration/fft_tools/scale.py:fourier_interp2d", "image_registration/fft_tools/scale.py:fourier_interpnd"]}
{"id": "C12", "title": "Interpolating at displaced coordinates is the same as shifting", "statement": "fourier_interp1d(data, arange(n) - d) equals shiftnd(data, (d,)) and fourier_interp2d(data, (arange(ny)-dy, arange(nx)-dx)) equals shift2d(data, dx, dy), for real data in the default real mode and for all axis lengths, even or odd.", "quantifier": "every real image, every real displacement", "why_tests_cant": "tests sample a few sizes, contents and offsets; the claim is for all of them", "anchors": ["image_registration/fft_tools/scale.py:fourier_interp1d", "image_registration/fft_tools/shift.py:shiftnd"]}
{"id": "C13", "title": "Interpolation argument validation", "statement": "fourier_interp1d raises ValueError exactly when out_x is not 1-D or data_x has a different shape from data; fourier_interp2d raises ValueError exactly when the index array has the wrong number of dimensions or the wrong leading length.", "quantifier": "every argument shape", "why_tests_cant": "finite tests sample shapes", "anchors": ["image_registration/fft_tools/scale.py:fourier_interp1d", "image_registration/fft_tools/scale.py:fourier_interp2d"]}
{"id": "C14", "title": "Zoom coordinate grids", "statement": "The output coordinates of zoom1d, zoom_on_pixel and zoomnd have the requested length, are spaced by exactly 1/usfac and are symmetric about the requested centre (array middle + offset, or the target pixel).", "quantifier": "every input size, output size, zoom factor > 0 and centre", "why_tests_cant": "tests sample a few sizes, contents and offsets; the claim is for all of them", "anchors": ["image_registration/fft_tools/zoom.py:zoom1d", "image_registration/fft_tools/zoom.py:zoom_on_pixel", "image_registration/fft_tools/zoom.py:zoomnd"]}
{"id": "C15", "title": "Zooming by 1 is the identity", "statement": "zoom1d and zoomnd with default arguments return the input array unchanged and, with return_xouts, the pixel indices as coordinates; the only exception is zoomnd of a one-element 1-D array, which raises ValueError.", "quantifier": "every 1-D and 2-D array of every size", "why_tests_cant": "tests sample a few sizes, contents and offsets; the claim is for all of them", "anchors": ["image_registration/fft_tools/zoom.py:zoom1d", "image_registration/fft_tools/zoom.py:zoomnd"]}
{"id": "C16", "title": "Full-size zoom covers exactly the pixel area", "statement": "With outsize = n*usfac the zoom grid runs from -1/2+1/(2 usfac) to n-1/2-1/(2 usfac); for odd usfac the samples (usfac-1)/2 :: usfac reproduce the input exactly; for even usfac no output sample coincides with an input pixel.", "quantifier": "every n, every integer usfac >= 1", "why_tests_cant": "tests check n in 3..26, usfac < 25 with tolerances", "anchors": ["image_registration/fft_tools/zoom.py:zoom1d", "image_registration/fft_tools/zoom.py:zoomnd"]}
{"id": "C17", "title": "Zoom argument handling", "statement": "zoomnd raises ValueError exactly when a non-empty offsets tuple has the wrong length; zoom_on_pixel raises NotImplementedError for 3 or more dimensions and ValueError for a 1-D zoom to a single pixel; coordinates missing from a short tuple are silently taken as pixel 0.", "quantifier": "every dimension count, tuple length and output shape", "why_tests_cant": "tests sample a few sizes, contents and offsets; the claim is for all of them", "anchors": ["image_registration/fft_tools/zoom.py:zoomnd", "image_registration/fft_tools/zoom.py:zoom_on_pixel"]}
{"id": "C18", "title": "dftups equals the zero-padded FFT it documents", "statement": "dftups(inp, nor, noc, usfac, roff, coff)[a,b] equals element (a-roff, b-coff) of the FFT of inp embedded (centred spectrum) in an array usfac times larger in each dimension.", "quantifier": "every input array, every integer usfac >= 1, every output size and integer offset", "why_tests_cant": "tests sample a few sizes, contents and offsets; the claim is for all of them", "anchors": ["image_registration/fft_tools/upsample.py:dftups"]}
{"id": "C19", "title": "upsample_image reproduces the input on the coarse grid", "statement": "upsample_image(image, usfac)[a,b] with integer sampling positions (a-yshift)/usfac, (b-xshift)/usfac equals the image pixel there (periodically); with upsample_factor=1 and no shift it returns the image itself; output size defaults to shape*usfac.", "quantifier": "every image, every integer factor, output size and shift", "why_tests_cant": "the regression test checks one 2x2 image", "anchors": ["image_registration/fft_tools/upsample.py:upsample_image", "image_registration/fft_tools/upsample.py:dftups"]}
{"id": "C20", "title": "odddftups is dftups", "statement": "odddftups returns the same array as dftups for all arguments (its odd-size bookkeeping has no effect).", "quantifier": "every argument", "why_tests_cant": "tests sample a few sizes, contents and offsets; the claim is for all of them", "anchors": ["image_registration/fft_tools/upsample.py:odddftups", "image_registration/fft_tools/upsample.py:dftups"]}
{"id": "C21", "title": "correlate2d is the circular cross-correlation with zero lag at pixel (n-1)//2", "statement": "For images of equal shape and the default boundary, correlate2d(im1, im2)[i,j] = sum over (y,x) of im1[y,x]*im2[y + cy - i, x + cx - j] (indices periodic) with cy=(ny-1)//2, cx=(nx-1)//2.", "quantifier": "every array size (odd and even, one pixel upwards), every pixel content", "why_tests_cant": "the zero-lag convention differs between even and odd sizes; tests sample sizes", "anchors": ["image_registration/fft_tools/correlate2d.py:correlate2d"]}
{"id": "C22", "title": "Exchanging the images mirrors the correlation map", "statement": "correlate2d(im2, im1)[i,j] = correlate2d(im1, im2)[2*cy - i, 2*cx - j] (indices periodic).", "quantifier": "every array size (odd and even, one pixel upwards), every pixel content", "why_tests_cant": "tests sample a few sizes, contents and offsets; the claim is for all of them", "anchors": ["image_registration/fft_tools/correlate2d.py:correlate2d"]}
{"id": "C23", "title": "chi2n_map is the exact chi-squared of every whole-pixel shift (scalar or no error)", "statement": "For scalar err != 0 (default 1), chi2n_map(im1, im2, err)[cy-dy, cx-dx] equals the sum over pixels of (im1 - im2 rolled by (-dy,-dx))^2 / err^2, NaNs counted as 0.", "quantifier": "every array size (odd and even, one pixel upwards), every pixel content, every shift, every nonzero scalar error", "why_tests_cant": "tests sample a few sizes, contents and offsets; the claim is for all of them", "anchors": ["image_registration/chi2_shifts.py:chi2n_map"]}
{"id": "C24", "title": "chi2n_map with an error image weights each pixel of image 2 with its own error", "statement": "For a per-pixel error array, chi2n_map[cy-dy,cx-dx] = sum over p of (im1[p] - im2[p+d])^2 / err[p+d]^2, where pixels with err 0 or NaN are first set to 0 in both images and given error 1.", "quantifier": "every array size (odd and even, one pixel upwards), every pixel content, every error image", "why_tests_cant": "tests sample a few sizes, contents and offsets; the claim is for all of them", "anchors": ["image_registration/chi2_shifts.py:chi2n_map"]}
{"id": "C25", "title": "chi2 is non-negative and vanishes at a true shift", "statement": "Every entry of chi2n_map is >= 0; if im2 is im1 rolled by (dy,dx) the entry for that shift is 0, hence the minimum, with and without zeromean.", "quantifier": "every array size (odd and even, one pixel upwards), every pixel content, every shift", "why_tests_cant": "tests sample a few sizes, contents and offsets; the claim is for all of them", "anchors": ["image_registration/chi2_shifts.py:chi2n_map"]}
{"id": "C26", "title": "chi2n_map terms and reduced normalisation", "statement": "With return_all the first result is term1+term2+term3 (divided by size-2 when reduced=True), term1 = sum(im2^2/err^2), term2 = -2*correlation, and without return_all only the first is returned.", "quantifier": "every array size (odd and even, one pixel upwards), every pixel content, all flags", "why_tests_cant": "tests sample a few sizes, contents and offsets; the claim is for all of them", "anchors": ["image_registration/chi2_shifts.py:chi2n_map"]}
{"id": "C27", "title": "Shape checks of the registration functions", "statement": "chi2n_map, chi2_shift, chi2_shift_leastsq, register_images and cross_correlation_shifts raise ValueError whenever the two images have different shapes; chi2n_map raises nothing else for finite or NaN images of equal shape, except the ValueError of the FFT convolution for arrays above 1 GB without allow_huge. An error image of another shape than the images is an IndexError.", "quantifier": "every pair of shapes", "why_tests_cant": "tests sample a few sizes, contents and offsets; the claim is for all of them", "anchors": ["image_registration/chi2_shifts.py:chi2n_map", "image_registration/register_images.py:register_images", "image_registration/cross_correlation_shifts.py:cross_correlation_shifts", "image_registration/chi2_shifts.py:chi2_shift_leastsq"]}
{"id": "C28", "title": "zeromean removes constant offsets", "statement": "With zeromean=True, adding constants to either image (NaN pixels staying NaN) does not change chi2n_map.", "quantifier": "every array size (odd and even, one pixel upwards), every pixel content, any NaN pattern, any two constants", "why_tests_cant": "tests sample a few sizes, contents and offsets; the claim is for all of them", "anchors": ["image_registration/chi2_shifts.py:chi2n_map"]}
{"id": "C29", "title": "Error scaling", "statement": "Multiplying a scalar err by s divides the chi2 map by s^2; multiplying an error image without zero pixels by s does the same; the sign of err is irrelevant.", "quantifier": "every array size (odd and even, one pixel upwards), every pixel content, every s != 0", "why_tests_cant": "tests sample a few sizes, contents and offsets; the claim is for all of them", "anchors": ["image_registration/chi2_shifts.py:chi2n_map"]}
{"id": "C30", "title": "chi2 map moves with the image", "statement": "Rolling im2 by (dy,dx) moves the scalar-error chi2 map by (-dy,-dx) (periodically), with and without zeromean, so a measured coarse shift changes by exactly (dx,dy) modulo the image size.", "quantifier": "every array size (odd and even, one pixel upwards), every pixel content, every shift", "why_tests_cant": "tests sample a few sizes, contents and offsets; the claim is for all of them", "anchors": ["image_registration/chi2_shifts.py:chi2n_map"]}
{"id": "C31", "title": "Upsampled chi2 is the residual of the sub-pixel shifted image", "statement": "At every grid point of the upsampled map returned by chi2_shift (scalar err), the value for shift (dx,dy) equals sum |im1 - shift(im2, -dx, -dy)|^2/err^2 with the complex-valued Fourier shift; it is therefore >= 0 everywhere.", "quantifier": "every array size (odd and even, one pixel upwards), every pixel content, every real shift", "why_tests_cant": "sub-pixel positions are uncountable", "anchors": ["image_registration/chi2_shifts.py:chi2_shift", "image_registration/fft_tools/zoom.py:zoomnd", "image_registration/fft_tools/shift.py:shiftnd"]}
{"id": "C32", "title": "chi2_shift returns the best grid point", "statement": "The returned (dx,dy) is (minus) a point of the returned coordinate grid at which the returned upsampled chi2 array attains its minimum, the first such point in C order.", "quantifier": "every array size (odd and even, one pixel upwards), every pixel content, every upsample factor", "why_tests_cant": "tests sample a few sizes, contents and offsets; the claim is for all of them", "anchors": ["image_registration/chi2_shifts.py:chi2_shift"]}
{"id": "C33", "title": "chi2_shift recovers a true shift that lies on its grid", "statement": "If im2 is im1 rolled by (dy,dx) (or, sub-pixel, shift2d(im1,dx,dy)), the lowest frequency of im1 is present along both axes and the search grid contains the true shift, chi2_shift returns exactly that shift (for whole pixels: the representative d of the shift modulo the size with -n <= 2d < n), for scalar err and an integer upsample_factor. The grid contains whole pixels for odd sizes when upsample_factor < ny and for even sizes when upsample_factor is odd; for odd ny and upsample_factor >= ny the reported shift is never within 1/(2 upsample_factor) of a whole pixel, even for identical images.", "quantifier": "every image, size, shift and upsample factor satisfying the condition", "why_tests_cant": "tests sample a few sizes, contents and offsets; the claim is for all of them", "anchors": ["image_registration/chi2_shifts.py:chi2_shift"]}
{"id": "C34", "title": "chi2_shift search window", "statement": "The reported shift differs from the best whole-pixel shift by at most half the zoomed window plus half a pixel: |dy - dy0| <= (s1-1)/(2*usfac) + 1/2 (no extra half pixel for odd sizes); the coarse shift lies in [-n/2, n/2].", "quantifier": "every array size (odd and even, one pixel upwards), every pixel content, every upsample factor", "why_tests_cant": "tests sample a few sizes, contents and offsets; the claim is for all of them", "anchors": ["image_registration/chi2_shifts.py:chi2_shift"]}
{"id": "C35", "title": "Automatic upsampling is well defined", "statement": "With upsample_factor='auto' the zoomed map is max_auto_size x max_auto_size with spacing 1/us, us = max(1, max_auto_size/2/size) >= 1, size >= 1 the larger side of the bounding box of the pixels with delta chi2 below the max_nsig threshold (1 for a single pixel); no division by zero occurs, and whenever 2*size <= max_auto_size the zoomed window spans at least that region.", "quantifier": "every chi2 map and threshold, every max_auto_size >= 1", "why_tests_cant": "tests sample a few sizes, contents and offsets; the claim is for all of them", "anchors": ["image_registration/chi2_shifts.py:chi2_shift"]}
{"id": "C36", "title": "chi2_shift return layout", "statement": "chi2_shift returns [dx, dy] + ([ex, ey] if return_error) + ([(xvals, yvals, chi2)] if return_chi2array), x before y. verbose=True raises ValueError exactly when the upsampled map is constant and otherwise changes nothing.", "quantifier": "every input and flag combination", "why_tests_cant": "tests sample a few sizes, contents and offsets; the claim is for all of them", "anchors": ["image_registration/chi2_shifts.py:chi2_shift"]}
{"id": "C37", "title": "Reported errors are non-negative and measure the delta-chi2 region", "statement": "chi2map_to_errors returns four non-negative numbers; they are the extents (in original pixels) from the minimum to the edges of the bounding box of {delta chi2 < threshold}; they scale as 1/zoomfactor, grow with the threshold and do not change when a constant is added to the map.", "quantifier": "every map, threshold > 0, zoom factor > 0", "why_tests_cant": "tests sample a few sizes, contents and offsets; the claim is for all of them", "anchors": ["image_registration/chi2_shifts.py:chi2map_to_errors"]}
{"id": "C38", "title": "Scaling both images does not change the measured shift", "statement": "With an explicit upsample_factor, multiplying both images by the same s != 0 (or the scalar err by s) leaves the shift returned by chi2_shift unchanged.", "quantifier": "every array size (odd and even, one pixel upwards), every pixel content, every s", "why_tests_cant": "tests sample a few sizes, contents and offsets; the claim is for all of them", "anchors": ["image_registration/chi2_shifts.py:chi2_shift"]}
{"id": "C39", "title": "iterative_zoom exit condition and outputs", "statement": "When iterative_zoom returns, the final zoomed image is flat or its smallest nonzero difference from the extremum is <= mindiff; zf is zoomstep^k after k iterations; offset = center - (shape-1)/2 component-wise.", "quantifier": "every image and parameter set on which it returns", "why_tests_cant": "loop histories of any length", "anchors": ["image_registration/iterative_zoom.py:iterative_zoom"]}
{"id": "C40", "title": "iterative_zoom terminates", "statement": "For every image, mindiff > 0 and zoomstep > 1 the loop stops after finitely many iterations (exact arithmetic).", "quantifier": "every image, zoom shape, mindiff > 0, zoomstep > 1", "why_tests_cant": "non-termination cannot be observed by a finite test", "anchors": ["image_registration/iterative_zoom.py:iterative_zoom", "image_registration/iterative_zoom.py:iterative_zoom_1d"]}
{"id": "C41", "title": "iterative_zoom stays near the coarse extremum", "statement": "The returned centre differs from the coarse extremum pixel by at most (zoomshape-1)/(2*(zoomstep-1)) pixels per axis.", "quantifier": "every image and iteration count", "why_tests_cant": "loop histories of any length", "anchors": ["image_registration/iterative_zoom.py:iterative_zoom"]}
{"id": "C42", "title": "iterative_zoom failure modes", "statement": "On a constant image iterative_zoom raises ValueError; if the loop body never runs it raises UnboundLocalError when return_center=True and returns zero offsets (wherever the extremum is) when return_center=False.", "quantifier": "every image and parameter set", "why_tests_cant": "tests sample a few sizes, contents and offsets; the claim is for all of them", "anchors": ["image_registration/iterative_zoom.py:iterative_zoom", "image_registration/iterative_zoom.py:iterative_zoom_1d"]}
{"id": "C43", "title": "chi2_shift_iterzoom at this commit cannot complete", "statement": "Every call of chi2_shift_iterzoom raises NameError (allow_huge is not bound), whatever the arguments; hence register_fits with its default method raises too.", "quantifier": "every argument combination", "why_tests_cant": "tests sample a few sizes, contents and offsets; the claim is for all of them", "anchors": ["image_registration/chi2_shifts.py:chi2_shift_iterzoom", "image_registration/FITS_tools/match_images.py:register_fits"]}
{"id": "C44", "title": "register_images recovers whole-pixel shifts", "statement": "If im2 is im1 rolled by (dy,dx), and no other candidate shift on the search grids correlates perfectly, register_images returns dx, dy reduced to the interval [-n/2, n/2), for usfac=1, usfac=2 and usfac>2.", "quantifier": "every image size, content satisfying the condition, shift and integer usfac >= 1", "why_tests_cant": "tests sample a few sizes, contents and offsets; the claim is for all of them", "anchors": ["image_registration/register_images.py:register_images", "image_registration/register_images.py:dftregistration"]}
{"id": "C45", "title": "register_images shifts are multiples of 1/usfac within range", "statement": "The returned shifts are integer multiples of 1/usfac (1/2 when usfac = 2, integers when usfac = 1); for usfac=1 they lie in [-n/2, n/2).", "quantifier": "every pair of images, every integer usfac >= 1", "why_tests_cant": "tests sample a few sizes, contents and offsets; the claim is for all of them", "anchors": ["image_registration/register_images.py:dftregistration"]}
{"id": "C46", "title": "register_images refinement maximises the upsampled correlation", "statement": "For usfac > 2 the returned shift maximises the modulus of the Fourier-interpolated cross-correlation over the refinement grid of ceil(1.5*usfac)^2 points around the initial estimate.", "quantifier": "every pair of images, usfac > 2", "why_tests_cant": "tests sample a few sizes, contents and offsets; the claim is for all of them", "anchors": ["image_registration/register_images.py:dftregistration", "image_registration/fft_tools/upsample.py:dftups"]}
{"id": "C47", "title": "register_images maxoff limits the shift", "statement": "For usfac=1 and maxoff >= 1 the returned shifts lie in [-maxoff, maxoff] (the value -maxoff only when the axis has exactly 2*maxoff pixels); for usfac=2 the limit is maxoff/2 pixels because the map is upsampled, for larger usfac maxoff/2 + 1; maxoff=0 imposes no limit; a true shift within the limit is still recovered.", "quantifier": "every pair of images, every maxoff", "why_tests_cant": "tests sample a few sizes, contents and offsets; the claim is for all of them", "anchors": ["image_registration/register_images.py:dftregistration"]}
{"id": "C48", "title": "register_images return layout and errors", "statement": "register_images returns [dx, dy] + ([1/usfac,1/usfac] if return_error) + ([registered image] if return_registered); usfac=0 raises ValueError; mismatched shapes raise ValueError.", "quantifier": "every input and flag combination", "why_tests_cant": "tests sample a few sizes, contents and offsets; the claim is for all of them", "anchors": ["image_registration/register_images.py:register_images"]}
{"id": "C49", "title": "The registered image is image 1 rolled by half the image", "statement": "For im2 = im1 rolled by a whole-pixel shift that register_images recovers, the returned registered image equals ifftshift(|im1 - mean|), i.e. aligned with image 1 only up to a roll by half the image.", "quantifier": "every image, size and shift", "why_tests_cant": "tests sample a few sizes, contents and offsets; the claim is for all of them", "anchors": ["image_registration/register_images.py:register_images"]}
{"id": "C50", "title": "cross_correlation_shifts measures relative to xlen/2-(1-xlen%2)", "statement": "The integer part of the reported shift is (centre - argmax of the correlation map) with centre (n-1)//2 for even n and half a pixel more for odd n. If image2 is image1 rolled by (dy,dx), image1 is invariant under no other roll and the correlation peak is not on the border of the map, the result is exactly (dx,dy) for even sizes and exactly half a pixel more along every axis of odd size.", "quantifier": "every array size (odd and even, one pixel upwards), every pixel content, every shift whose peak is interior", "why_tests_cant": "tests sample a few sizes, contents and offsets; the claim is for all of them", "anchors": ["image_registration/cross_correlation_shifts.py:cross_correlation_shifts"]}
{"id": "C51", "title": "Taylor refinement of cross_correlation_shifts", "statement": "The sub-pixel correction is the stationary point of the local quadratic when the cross term vanishes and both curvatures are equal; it vanishes for maps symmetric about the peak; for unequal curvatures or a nonzero cross term the x/y second derivatives are exchanged (and the cross term negated), so the correction is in general not the stationary point.", "quantifier": "every 3x3 neighbourhood", "why_tests_cant": "tests sample a few sizes, contents and offsets; the claim is for all of them", "anchors": ["image_registration/cross_correlation_shifts.py:cross_correlation_shifts", "image_registration/cross_correlation_shifts.py:second_derivative"]}
{"id": "C52", "title": "second_derivative stencils", "statement": "second_derivative returns at interior pixels the 3-point second differences along x and y and minus the usual mixed difference; at the border, neighbours outside the image count as 0.", "quantifier": "every image of every size", "why_tests_cant": "tests sample a few sizes, contents and offsets; the claim is for all of them", "anchors": ["image_registration/cross_correlation_shifts.py:second_derivative"]}
{"id": "C53", "title": "cross_correlation_shifts special cases", "statement": "If the correlation map's maximum is 0 it returns exactly (0,0) (two values even with return_error=True), which with zeromean happens only if the map vanishes; otherwise any maxoff raises TypeError; without gaussfit a peak in the first row or column raises ValueError; gaussfit without agpy raises ImportError, with agpy gives two (or four with return_error) values.", "quantifier": "every pair of images and flags", "why_tests_cant": "tests sample a few sizes, contents and offsets; the claim is for all of them", "anchors": ["image_registration/cross_correlation_shifts.py:cross_correlation_shifts"]}
{"id": "C54", "title": "downsample is block averaging", "statement": "downsample(arr, f) has shape (ny//f, nx//f) and each output pixel is the mean of the non-NaN pixels of its f x f block (NaN if none); trailing rows/columns that do not fill a block are ignored.", "quantifier": "every image, NaN pattern and factor >= 1", "why_tests_cant": "tests sample a few sizes, contents and offsets; the claim is for all of them", "anchors": ["image_registration/fft_tools/downsample.py:downsample"]}
{"id": "C55", "title": "downsample preserves the mean and composes", "statement": "If f divides both axes and there are no NaNs, the mean is preserved; downsampling by f then g equals downsampling by f*g; factor 1 is the identity.", "quantifier": "every image and factors", "why_tests_cant": "tests sample a few sizes, contents and offsets; the claim is for all of them", "anchors": ["image_registration/fft_tools/downsample.py:downsample"]}
{"id": "C56", "title": "downsample_axis blocks", "statement": "downsample_axis with truncate=False yields ceil(n/f) blocks along the axis, the last averaging only the remaining pixels; with truncate=True floor(n/f) complete blocks; other axes untouched. Any other estimator is applied to the list of the f pixels of the block, padded with NaN. Without NaNs, downsample equals downsample_axis with truncate=True along both axes. Factor 0 is a ZeroDivisionError, a negative factor a ValueError, a missing axis an IndexError.", "quantifier": "every array, axis, factor", "why_tests_cant": "tests sample a few sizes, contents and offsets; the claim is for all of them", "anchors": ["image_registration/fft_tools/downsample.py:downsample_axis"]}
{"id": "C57", "title": "Functions that cannot complete at this commit", "statement": "downsample_1d always raises UnboundLocalError, downsample_cube on 3-D input always raises (ValueError for ignoredim > 2, else ZeroDivisionError for factor 0, else NameError), smooth never returns normally (TypeError or AttributeError or an earlier kernel error), and make_kernel('airy'/'brickwall') always raises.", "quantifier": "every argument combination", "why_tests_cant": "tests sample a few sizes, contents and offsets; the claim is for all of them", "anchors": ["image_registration/fft_tools/downsample.py:downsample_1d", "image_registration/fft_tools/downsample.py:downsample_cube", "image_registration/fft_tools/smooth_tools.py:smooth", "image_registration/fft_tools/smooth_tools.py:make_kernel"]}
{"id": "C58", "title": "make_kernel normalisation and symmetry", "statement": "gaussian, boxcar, tophat and trapezoid kernels with the default normalisation sum to 1 whenever they are not identically 0; all entries are >= 0; the gaussian peaks exactly at pixel n//2 (the centre convolution uses), is symmetric about it, while tophat/trapezoid are symmetric under index reversal.", "quantifier": "every kernel shape and width", "why_tests_cant": "tests sample a few sizes, contents and offsets; the claim is for all of them", "anchors": ["image_registration/fft_tools/smooth_tools.py:make_kernel"]}
{"id": "C59", "title": "make_kernel argument handling", "statement": "An unknown kerneltype raises UnboundLocalError, trapezoid without slope raises ValueError, force_odd reduces even dimensions by one and keeps odd ones.", "quantifier": "every argument", "why_tests_cant": "tests sample a few sizes, contents and offsets; the claim is for all of them", "anchors": ["image_registration/fft_tools/smooth_tools.py:make_kernel"]}
{"id": "C60", "title": "boxcar kernel is a centred square", "statement": "A boxcar of integer width w that fits the shape is exactly 1/w^d on w^d contiguous pixels starting at n//2 - w//2 along each axis and 0 elsewhere.", "quantifier": "every shape and width", "why_tests_cant": "tests sample a few sizes, contents and offsets; the claim is for all of them", "anchors": ["image_registration/fft_tools/smooth_tools.py:make_kernel"]}
{"id": "C61", "title": "convolvend 'wrap' is circular convolution, 'fill' is linear convolution", "statement": "With boundary='wrap' and kernel no larger than the image, convolvend(array,kernel)[i] = sum_j array[j]*kernel[i-j+k//2] with periodic array indices; with boundary='fill' (fill_value 0) the same sum with zeros outside the array, without wrap-around contamination, with and without fft_pad.", "quantifier": "every array and kernel size, every content", "why_tests_cant": "tests sample a few sizes, contents and offsets; the claim is for all of them", "anchors": ["image_registration/fft_tools/convolve_nd.py:convolvend"]}
{"id": "C62", "title": "convolvend output shape and padding", "statement": "With crop=True the output has the shape of the array (not of the larger input); padded sizes are powers of two at least as large as needed.", "quantifier": "all shapes and flags", "why_tests_cant": "tests sample a few sizes, contents and offsets; the claim is for all of them", "anchors": ["image_registration/fft_tools/convolve_nd.py:convolvend"]}
{"id": "C63", "title": "convolvend NaN interpolation keeps constants", "statement": "With interpolate_nan=True, a normalised non-negative kernel and an image constant c except NaNs, every output pixel with positive weight is c and pixels with zero weight are 0 (min_wt=0), boundary='wrap'.", "quantifier": "every NaN pattern, kernel, size", "why_tests_cant": "tests sample a few sizes, contents and offsets; the claim is for all of them", "anchors": ["image_registration/fft_tools/convolve_nd.py:convolvend"]}
{"id": "C64", "title": "header_overlap region algebra", "statement": "overlap='union' yields the smallest box containing both images' boxes; 'intersection' the largest box inside both; results are symmetric in the two headers; any other mode raises ValueError. Headers whose coordinates do not have two axes are a ValueError, a first header without NAXIS1 or NAXIS2 a KeyError; nothing is modified.", "quantifier": "every pair of corner coordinates", "why_tests_cant": "tests sample a few sizes, contents and offsets; the claim is for all of them", "anchors": ["image_registration/FITS_tools/fits_overlap.py:header_overlap"]}
{"id": "C65", "title": "header_overlap output header", "statement": "NAXIS values are >= 0, are 0 on an axis exactly when the boxes are disjoint there or have zero extent, otherwise the smallest integer n with n*|cdelt| >= extent; CRVAL is the box centre, CRPIX = NAXIS/2, CDELT has the finer of the two scales with the sign of header 1; CDi_j cards are removed; all other cards of header 1 are kept; the inputs are not modified; a scale of 0 on an axis where the images touch raises OverflowError, or ValueError if the region to cover is a single point.", "quantifier": "every pair of headers", "why_tests_cant": "tests sample a few sizes, contents and offsets; the claim is for all of them", "anchors": ["image_registration/FITS_tools/fits_overlap.py:header_overlap"]}
{"id": "C66", "title": "header_overlap longitude wrap", "statement": "With the default max_separation of 180 degrees the header returned by header_overlap does not depend on the turn in which the WCS library reports longitudes (359 or -1). In general longitudes are moved by whole turns: for max_separation s >= 180, values in [-360-s, 360+s] end in [-s, s] and are left alone inside; for s < 180 values between s and 360-s end up below -s.", "quantifier": "every pair of headers and WCS, every longitude", "why_tests_cant": "tests sample a few sizes, contents and offsets; the claim is for all of them", "anchors": ["image_registration/FITS_tools/fits_overlap.py:header_overlap"]}
{"id": "C67", "title": "get_cd returns nothing for a zero CD diagonal", "statement": "get_cd(wcs, n) returns CD[n,n] when a CD matrix is present with nonzero diagonal, CDELT when no CD matrix is present, and None when the CD diagonal is zero.", "quantifier": "every wcs", "why_tests_cant": "tests sample a few sizes, contents and offsets; the claim is for all of them", "anchors": ["image_registration/FITS_tools/load_header.py:get_cd"]}
{"id": "C68", "title": "load_header / load_data dispatch", "statement": "load_header resolves its argument in the order mapping, HDU, FITS file, text file, header string, moving on only on IOError; load_data returns arrays unchanged, then FITS data, then HDU data, then the 0th HDU of an HDUList (with a warning), otherwise None; non-IOError exceptions propagate.", "quantifier": "every kind of input and every outcome of the file reads", "why_tests_cant": "failure combinations are not enumerable with files", "anchors": ["image_registration/FITS_tools/load_header.py:load_header", "image_registration/FITS_tools/load_header.py:load_data"]}
{"id": "C69", "title": "match_fits sigma cut", "statement": "Without sigma_cut the images are returned unchanged; with it, every returned pixel is the original pixel if above threshold, 0 if below (NaN stays NaN), unless the two cut images have no common signal, in which case both originals are returned; shapes that differ raise ValueError.", "quantifier": "every pair of images, thresholds", "why_tests_cant": "tests sample a few sizes, contents and offsets; the claim is for all of them", "anchors": ["image_registration/FITS_tools/match_images.py:match_fits"]}
{"id": "C70", "title": "register_fits outputs", "statement": "register_fits returns (dx, dy, dx*cdelt1, dy*cdelt2) followed, in this order and only when requested, by (ex, ey, ex*cdelt1, ey*cdelt2), the two projected images, the second image shifted by (-dx,-dy), and the header.", "quantifier": "every registration result, WCS and flag combination", "why_tests_cant": "tests sample a few sizes, contents and offsets; the claim is for all of them", "anchors": ["image_registration/FITS_tools/match_images.py:register_fits"]}
{"id": "C71", "title": "cross_correlation_shifts_FITS outputs", "statement": "World offsets are pixel offsets times the CD diagonal (0,0 when the header has no CD matrix); returned cropped images are the uncut ones; sigma_cut falls back to the uncut images when the cut leaves no common signal.", "quantifier": "every registration result, WCS and flags", "why_tests_cant": "tests sample a few sizes, contents and offsets; the claim is for all of them", "anchors": ["image_registration/cross_correlation_shifts.py:cross_correlation_shifts_FITS"]}
{"id": "C72", "title": "centers_to_edges", "statement": "For an increasing uniform grid of n >= 2 centres, centers_to_edges returns n+1 edges, consecutive edges bracket each centre at distance step/2.", "quantifier": "every uniform grid", "why_tests_cant": "tests sample a few sizes, contents and offsets; the claim is for all of them", "anchors": ["image_registration/iterative_zoom.py:centers_to_edges"]}
{"id": "C73", "title": "Sub-pixel shifts are exact for band-limited images", "statement": "If the pixels are samples of a trigonometric polynomial, a sum of plane waves exp(2*pi*i*sum_d m_d*t_d/n_d) with integer frequencies |m_d| < n_d/2 and any coefficients, shiftnd by any real offset returns exactly the samples of that function displaced by the offset (for real pixels the default real output is its real part).", "quantifier": "all dimensions, shapes, frequencies below Nyquist and real offsets", "why_tests_cant": "continuum of offsets and all shapes and frequencies; tests compare a handful of shifts with a tolerance", "anchors": ["image_registration/fft_tools/shift.py:shiftnd", "image_registration/fft_tools/shift.py:shift2d"]}
{"id": "C74", "title": "fourier_interp1d with explicit sample positions", "statement": "With data_x given (strictly increasing), fourier_interp1d returns the sample itself at every coordinate listed in data_x; for evenly spaced data_x it is plain interpolation in the rescaled coordinate within the sampled range; coordinates outside the range of data_x are clamped to the end samples.", "quantifier": "every data vector, every strictly increasing coordinate vector, every list of output coordinates", "why_tests_cant": "tests sample a few sizes, contents and offsets; the claim is for all of them", "anchors": ["image_registration/fft_tools/scale.py:fourier_interp1d"]}
{"id": "C75", "title": "dftups1d evaluates the Fourier interpolant", "statement": "dftups1d of the inverse FFT of a vector is its Fourier interpolant at (i + offset)/usfac for i in range(outsize) (opposite offset sign to dftups), and return_xouts returns exactly those coordinates.", "quantifier": "every complex vector, real upsampling factor, output size and offset", "why_tests_cant": "tests sample a few sizes, contents and offsets; the claim is for all of them", "anchors": ["image_registration/fft_tools/upsample.py:dftups1d"]}
{"id": "C76", "title": "A common roll of both images does not matter", "statement": "Rolling both images by the same whole-pixel amount leaves everything chi2_shift returns unchanged (scalar err, wrapped boundary).", "quantifier": "every array size, content (NaN included), roll, upsample factor and flag combination", "why_tests_cant": "tests sample a few rolls and images", "anchors": ["image_registration/chi2_shifts.py:chi2_shift", "image_registration/chi2_shifts.py:chi2n_map"]}
{"id": "C77", "title": "Exchanging the images negates the shift", "statement": "For odd image sizes, scalar err and an explicit upsample_factor, chi2_shift(im2, im1) is exactly minus chi2_shift(im1, im2) whenever the minima of the chi2 map and of the zoomed map are unique.", "quantifier": "every odd size, every content, every upsample factor", "why_tests_cant": "tests sample a few image pairs", "anchors": ["image_registration/chi2_shifts.py:chi2_shift"]}
{"id": "C78", "title": "Error estimates of cross_correlation_shifts", "statement": "With return_error (no gaussfit) the first two values are those of the call without it; the reported x error is computed from the curvature of the correlation map along y and the y error from the curvature along x: |N^3*curv/(S1*S2) * c/(1-c^2)|^(-1/2) with c = N*peak/(S1*S2). errim1 and errim2 have no effect without gaussfit.", "quantifier": "every pair of images whose peak is not in the first row or column, every error image", "why_tests_cant": "tests compare with loose tolerances on nearly isotropic sources, where exchanging the axes is invisible", "anchors": ["image_registration/cross_correlation_shifts.py:cross_correlation_shifts"]}
{"id": "C79", "title": "iterative_zoom does not lose the extremum for odd zoom shapes", "statement": "With zoomshape of odd sizes, the Fourier interpolant of the image at the centre returned by iterative_zoom is <= (minmax=np.max: >=) every pixel of the image, however many zooms were made. (Even sizes, the default, do not contain their centre and have no such guarantee.)", "quantifier": "every image, odd zoom shape, zoomstep, mindiff, minimum or maximum, on which it returns", "why_tests_cant": "loop histories of any length, all images", "anchors": ["image_registration/iterative_zoom.py:iterative_zoom"]}
{"id": "C80", "title": "convolvend's effect on the caller's arrays", "statement": "convolvend leaves a non-complex image and kernel untouched. A complex image comes back unchanged after a successful call; a complex kernel comes back unchanged, or with its NaNs replaced by 0 when it was normalised; when the call raises after the NaN replacement the NaNs of complex inputs are left as 0.", "quantifier": "every image, kernel, dtype and option combination", "why_tests_cant": "side effects on every combination of dtype, NaN placement and failing option", "anchors": ["image_registration/fft_tools/convolve_nd.py:convolvend"]}
{"id": "C81", "title": "convolvend return_fft", "statement": "With return_fft the result is a spectrum whose inverse FFT is the convolution on the padded array: with fft of the padded arrays, what crop=False returns without NaN weighting; fftshift variants included.", "quantifier": "every image, kernel, boundary and padding option", "why_tests_cant": "tests sample a few sizes, contents and kernels; the claim is for all of them", "anchors": ["image_registration/fft_tools/convolve_nd.py:convolvend"]}
{"id": "C82", "title": "overlap of an image with itself", "statement": "header_overlap of a header with itself keeps the pixel scale and centre but has one pixel fewer along each axis (pixel centres, not edges, are enclosed), in both modes.", "quantifier": "every linear header with nonzero scales whose longitudes lie within max_separation of 0, every size", "why_tests_cant": "sizes and scales are unbounded", "anchors": ["image_registration/FITS_tools/fits_overlap.py:header_overlap"]}
{"id": "C83", "title": "a union header covers both images", "statement": "The header returned by header_overlap(overlap='union') for images that touch maps every longitude and latitude between the corner pixels of either image to a pixel coordinate between 0 and NAXIS (half a pixel outside the FITS image, which begins at 0.5).", "quantifier": "every pair of headers with nonzero scales whose images touch", "why_tests_cant": "all sizes, scales and positions", "anchors": ["image_registration/FITS_tools/fits_overlap.py:header_overlap"]}
{"id": "C84", "title": "register_fits keyword arguments and errors", "statement": "register_fits with both errfile and header is a TypeError; errors of the readers, of the reprojection and of the method propagate; a method that does not return four values is a ValueError.", "quantifier": "every method, file and option combination", "why_tests_cant": "any method and any failing reader", "anchors": ["image_registration/FITS_tools/match_images.py:register_fits"]}
{"id": "C85", "title": "register_fits recovers a whole-pixel roll", "statement": "register_fits with register_method=chi2_shift on a file and its copy rolled by whole pixels (less than half of odd sizes, upsampling below the number of rows) returns these offsets, their world values, and as shifted image exactly the first image.", "quantifier": "every such image with a non-zero lowest frequency along each axis, every roll", "why_tests_cant": "every image, size and roll", "anchors": ["image_registration/FITS_tools/match_images.py:register_fits", "image_registration/chi2_shifts.py:chi2_shift"]}
{"id": "C86", "title": "fits_overlap", "statement": "fits_overlap of two files is header_overlap of the headers read from them and modifies no other header; a file that cannot be read raises the reader's error.", "quantifier": "every pair of files, reader and option", "why_tests_cant": "any header content and reader behaviour", "anchors": ["image_registration/FITS_tools/fits_overlap.py:fits_overlap"]}
{"id": "C87", "title": "Periodic-sinc interpolation kernel", "statement": "Fourier interpolation (1-D, 2-D) and sub-pixel shifts are, for every array and real position, the sum of the samples weighted by the periodic sinc kernel of each axis: sin(pi u) cos(pi u/n)/(n sin(pi u/n)) for even n, sin(pi u)/(n sin(pi u/n)) for odd n, u being the distance from the sample. An even axis adds the imaginary Nyquist term i sin(pi u)/n, which is invisible in a real 1-D result; a real 2-D result is the product of the two kernels minus the product of the two Nyquist terms. The kernel is 1 at multiples of n and 0 at every other integer, and its n samples sum to 1.", "quantifier": "every array size, array content, real position and shift", "why_tests_cant": "the formula ranges over all sizes, all samples and a continuum of positions", "anchors": ["image_registration/fft_tools/scale.py:fourier_interp1d", "image_registration/fft_tools/scale.py:fourier_interp2d", "image_registration/fft_tools/shift.py:shift2d"]}
{"id": "C88", "title": "dftregistration returns the phase-compensated registered spectrum", "statement": "dftregistration applied to the spectra of two real images a, b returns [row, col], then with return_error twice 1/usfac, then with return_registered the spectrum of b Fourier-shifted by (row, col) times one global phase, the phase for which it is closest to a. If b is a rolled by whole pixels and the roll is identifiable, the shifts are minus the roll and the registered spectrum is exactly the spectrum of a. usfac=0 is a ValueError. register_images reports minus these shifts in the order x, y.", "quantifier": "every pair of real images, size, usfac, maxoff and option", "why_tests_cant": "optimality over all global phases and exactness for every image and size", "anchors": ["image_registration/register_images.py:dftregistration", "image_registration/register_images.py:register_images"]}
{"id": "C89", "title": "chi2_shift_leastsq: what is fitted, and when it works", "statement": "With use_fft=True and ignore_outside=False, chi2_shift_leastsq hands lmfit, for every trial (x, y), the moduli of im1 - shift(im2, (-y, -x)) divided by the error (shifted likewise if it is an array) and by the square root of the number of pixels, for images whose NaNs were set to 0 and whose means were then subtracted; it returns the fitted x, y and, with return_error, their standard errors. If im2 is im1 rolled by whole pixels and lmfit finds the least sum of squares, the answer is the roll up to whole turns of the image. In its default configuration (ignore_outside=True) and whenever maxoff is given it cannot complete: TypeError. Without lmfit (or, without use_fft, without scipy.ndimage) it is an ImportError.", "quantifier": "every pair of images of equal shape, every error, option, starting point and every behaviour of lmfit", "why_tests_cant": "holds for every image, roll and size and for any minimiser; the default configuration fails for all inputs", "anchors": ["image_registration/chi2_shifts.py:chi2_shift_leastsq"]}
{"id": "C90", "title": "chi2_shift_leastsq overwrites the caller's error array", "statement": "For images of equal shape chi2_shift_leastsq writes infinity into the caller's error array at exactly the pixels where im2 is NaN, even if the call then raises; otherwise the error array is left alone.", "quantifier": "every pair of images and every error array", "why_tests_cant": "side effect for all inputs and all outcomes of the call", "anchors": ["image_registration/chi2_shifts.py:chi2_shift_leastsq"]}
{"id": "C91", "title": "chi2_shift_iterzoom once the missing global is supplied", "statement": "In a program that defines chi2_shifts.allow_huge (without it every call is a NameError, C43), chi2_shift_iterzoom returns minus the offset that iterative_zoom finds in the chi-squared map (x first), with return_error the errors measured on the rezoomed map, and with return_chi2array the Fourier interpolant of the chi-squared map on a grid of rezoom_shape points spaced by 1/(zoom factor*rezoom_factor) (without rezoom_factor if the last zoom is all zero), with its coordinates. If im2 is im1 rolled by whole pixels, every nonzero chi-squared exceeds mindiff and zoom_shape is odd, the answer is exactly the roll modulo the image size along axes of odd size and exactly half a pixel more along axes of even size.", "quantifier": "every pair of images, error, flag, zoom and rezoom shape, rezoom factor and mindiff > 0", "why_tests_cant": "exactness for every image and every number of zoom iterations", "anchors": ["image_registration/chi2_shifts.py:chi2_shift_iterzoom", "image_registration/iterative_zoom.py:iterative_zoom"]}
{"id": "C92", "title": "correlate2d with boundary='fill' and for images of different sizes", "statement": "correlate2d(im1, im2, boundary='fill') has the shape of im1 (whatever the size of im2) and entry i is the sum over pixels p of im1[p]*im2[p + (m-1)//2 - i] with m the shape of im2, where pixels outside im2 and NaN pixels count as 0; neither the amount of zero padding nor the FFT backend matters. With boundary='wrap' and images of different sizes both are continued by zeros to the larger size along each axis and correlated periodically. The two modes agree when no nonzero pixels of the two images are half an image or more apart. A padded array above 1 GB is a ValueError unless allow_huge.", "quantifier": "every two images of any two nonempty sizes, every padding rule that adds at least the size of im2, both FFT backends", "why_tests_cant": "holds for every pair of images, sizes and padding rule", "anchors": ["image_registration/fft_tools/correlate2d.py:correlate2d"]}
{"id": "C93", "title": "chi2n_map with boundary='fill'", "statement": "With boundary='fill' and a scalar error, entry i of chi2n_map is the sum over the whole plane of (im1[z]-im2[z+d])^2/err^2 with d=(n-1)//2-i, both images continued by zeros; with an error image it is the sum over the pixels q of im2 of (im1[q-d]-im2[q])^2/err[q]^2 with im1 continued by zeros (pixels with zero or NaN error count as 0 in both images). A scalar error and a constant error image therefore give different maps: the difference is the light of im1 that leaves the frame. Every entry is non-negative.", "quantifier": "every pair of images of equal shape, every error, every sufficient padding rule and FFT backend", "why_tests_cant": "an identity for all images, sizes and displacements", "anchors": ["image_registration/chi2_shifts.py:chi2n_map", "image_registration/fft_tools/correlate2d.py:correlate2d"]}
{"id": "C94", "title": "chi2_shift with boundary='fill' recovers whole-pixel moves of any object", "statement": "If im2 is im1 moved by whole pixels (dy, dx) with zeros moving in and no nonzero pixel leaving the frame, and -n <= 2d < n, then with boundary='fill' the chi-squared map is 0 at the entry of that displacement and positive everywhere else, and chi2_shift with upsample_factor=1 and zeromean off returns exactly [dx, dy]; unlike for boundary='wrap' no condition on the image is needed except that it is nonzero.", "quantifier": "every nonzero image with at least two rows, every such move, every nonzero scalar error or error image without zeros and NaN, every sufficient padding rule and FFT backend", "why_tests_cant": "holds for every image, size and move", "anchors": ["image_registration/chi2_shifts.py:chi2_shift", "image_registration/chi2_shifts.py:chi2n_map"]}
{"id": "C95", "title": "chi2_shift for every boundary mode reads only the chi-squared map", "statement": "Whatever the boundary mode, chi2_shift depends on the images, the error and the options of chi2n_map only through the array that chi2n_map returns: two calls with equal maps give equal results or equal exceptions. The answer is minus the first minimum, on the documented grid around the first minimum of that map, of the Fourier interpolant of the map; the return layout depends only on return_error and return_chi2array; images of different shapes are a ValueError.", "quantifier": "every two calls on one installation (images, errors, boundary modes, thread counts, zeromean), every valid upsampling argument", "why_tests_cant": "a non-interference property over all pairs of calls", "anchors": ["image_registration/chi2_shifts.py:chi2_shift", "image_registration/chi2_shifts.py:chi2n_map"]}
{"id": "C96", "title": "chi2_shift recovers a whole-pixel shift in spite of noise", "statement": "If the second image is the first one rolled by a whole number of pixels (or, with boundary='fill', moved with zeros moving in) plus any disturbance, and the moved image differs from every other displacement of the first image by more than four times the disturbance (sums of squares in units of the error), chi2_shift with upsample_factor=1 returns exactly that shift.", "quantifier": "every pair of sizes, every image, every disturbance below the stated level, every shift, scalar errors and error images, every installation", "why_tests_cant": "the disturbance is arbitrary (not drawn from a distribution), so no sample of noise realisations covers it", "anchors": ["image_registration/chi2_shifts.py:chi2_shift", "image_registration/chi2_shifts.py:chi2n_map"]}
{"id": "C97", "title": "the error of chi2_shift's sub-pixel answer is bounded by the noise and the grid", "statement": "For any two images and any real displacement d, the first image shifted by the answer of chi2_shift is as close to the first image shifted by d as the one shifted by any grid point of the returned arrays, up to twice the distance between the second image and the image shifted by d. Consequently the reported shift differs from d, modulo the image size, by at most an explicit multiple of (pi times the distance of d from the grid times the norm of the image, plus twice the norm of the noise).", "quantifier": "every two images, every displacement, every scalar error, every valid upsampling argument, every installation", "why_tests_cant": "an accuracy guarantee for every image, displacement and disturbance; tests sample noise and shifts", "anchors": ["image_registration/chi2_shifts.py:chi2_shift", "image_registration/fft_tools/shift.py:shift2d", "image_registration/fft_tools/zoom.py:zoom_on_pixel"]}
{"id": "C98", "title": "register_images recovers a whole-pixel shift in spite of noise", "statement": "If the second image is the first one rolled by whole pixels plus any disturbance, and the autocorrelation of the first image at every other candidate displacement stays below its peak by more than twice the product of the norms of the image and the disturbance, register_images returns exactly that shift for every upsampling factor, reduced to half the image size.", "quantifier": "every size, image, disturbance below the stated level, whole-pixel shift and upsampling factor, with and without zeromean", "why_tests_cant": "the disturbance is arbitrary, so no sample of noise realisations covers it", "anchors": ["image_registration/register_images.py:register_images", "image_registration/register_images.py:dftregistration"]}
{"id": "C99", "title": "sub-pixel operations on scenes that are not band limited are off by at most the aliased amplitude", "statement": "If the image holds samples of a scene f that is the sum of an absolutely convergent Fourier series with the periods of the array, then fourier_interp1d, fourier_interp2d, zoom_on_pixel, shiftnd and shift2d return, at every real coordinate and for every real offset, the true value of f there, with an error of at most twice the total amplitude at and above the Nyquist frequency; as the sampling is refined the interpolant converges uniformly to the scene.", "quantifier": "every scene with absolutely summable Fourier coefficients, every size and number of dimensions, every coordinate, offset and upsampling factor, every FFT backend", "why_tests_cant": "quantifies over an infinite-dimensional space of scenes and all real coordinates", "anchors": ["image_registration/fft_tools/scale.py:fourier_interp1d", "image_registration/fft_tools/scale.py:fourier_interp2d", "image_registration/fft_tools/zoom.py:zoom_on_pixel", "image_registration/fft_tools/shift.py:shiftnd", "image_registration/fft_tools/shift.py:shift2d"]}
{"id": "C100", "title": "correcting by the measured shift registers the images (the README recipe)", "statement": "Calling chi2_shift on two images and then shift2d on the second with the negated result gives an image at least as close to the first, in chi-squared, as any point of the search grid; if the second image is the first one rolled by whole pixels the corrected image is exactly the first, with noise below the level of C96 it is the first plus the rolled-back noise, and for a sub-pixel Fourier shift whose offset is on the grid it is exactly the first.", "quantifier": "every size, image pair, scalar error, upsampling factor, whole-pixel or grid offset, disturbance below the stated level, FFT backend, return_abs flag", "why_tests_cant": "the composition must cancel for every image, offset and noise, not for one Gaussian", "anchors": ["image_registration/chi2_shifts.py:chi2_shift", "image_registration/fft_tools/shift.py:shift2d"]}
{"id": "C101", "title": "error bars grow with the noise and shrink with the signal", "statement": "With an explicit upsampling factor, multiplying a scalar error (or an error image without zeros) by a factor of modulus at least 1 leaves the shift returned by chi2_shift unchanged and never makes its error bars smaller; brightening both images by such a factor leaves the shift unchanged and never makes the error bars larger.", "quantifier": "every size, image pair (NaN allowed), error, factor, explicit upsampling factor, zeromean setting and FFT backend", "why_tests_cant": "monotonicity over a continuous family of noise levels for every image pair", "anchors": ["image_registration/chi2_shifts.py:chi2_shift", "image_registration/chi2_shifts.py:chi2map_to_errors", "image_registration/chi2_shifts.py:chi2n_map"]}
{"id": "C102", "title": "chi2_shift and register_images give the same whole-pixel answer", "statement": "If some whole-pixel displacement makes two images overlap (sum of products, periodic) more than the absolute overlap at every other displacement - for images without negative pixels: more than at every other displacement - then chi2_shift with upsample_factor=1 and register_images with usfac=1 return the same two numbers, that displacement reduced to half the image size, in the same order and with the same sign.", "quantifier": "every size, image pair with one best displacement, scalar error, zeromean setting and FFT backend", "why_tests_cant": "agreement of two independent algorithms on every image pair", "anchors": ["image_registration/chi2_shifts.py:chi2_shift", "image_registration/register_images.py:register_images"]}
{"id": "C103", "title": "accuracy of the sub-pixel answer of register_images", "statement": "For any two real images and any displacement, with noise = im2 minus the shifted im1: at the error of the shift returned by register_images the self-correlation of im1 is at least as large as at the error of every other whole-pixel (usfac=1), half-pixel (even usfac) or - when the noise is too small to confuse distant displacements - nearest 1/usfac displacement, up to 2*norm(im1)*norm(noise). From the power of im1 at the frequencies (0,0), (1,0), (0,1) this bounds the error of each returned shift, up to whole image sizes.", "quantifier": "every size, image pair, true displacement, usfac, zeromean setting and FFT backend", "why_tests_cant": "an error bound for every image pair and every noise field", "anchors": ["image_registration/register_images.py:register_images", "image_registration/register_images.py:dftregistration", "image_registration/fft_tools/shift.py:shift2d"]}
{"id": "C104", "title": "make_offset_images: the two test images", "statement": "make_offset_images refuses a centre that is not an integer (TypeError) and a noise amplitude of 0 (ZeroDivisionError); otherwise, for a nonzero width, the first image is the noiseless Gaussian of height amp and standard deviation width centred at pixel (ycen, xcen), the second the same Gaussian centred at (ycen+ysh, xcen+xsh) plus noiseamp times the standard-normal draws, so for a whole-pixel offset every pixel of the first is found ysh rows and xsh columns further in the second; for amp/noiseamp > 0 the third value t satisfies t^2*2*pi*width^2*amp/noiseamp = 9; for amp > 0 the centre pixel is the only one that reaches amp.", "quantifier": "every size, offset, centre, width, amplitude, noise level and noise draw", "why_tests_cant": "equality of images at every pixel for every parameter and every random draw", "anchors": ["image_registration/tests/registration_testing.py:make_offset_images"]}
{"id": "C105", "title": "make_extended: an image with a power-law spectrum", "statement": "make_extended returns the modulus of the random field whose coefficient at frequency distance r is the complex draw times r^(-powerlaw/2); the sum of squared pixels is the power-law-weighted sum of the squared draws over the number of pixels; for a nonzero power-law index exactly one frequency is left out if both sizes are even, none otherwise; no pixel is negative or NaN; scaling the draws by t scales the image by |t|.", "quantifier": "every size, power-law index and random draw", "why_tests_cant": "identity for every draw of the random generator", "anchors": ["image_registration/tests/registration_testing.py:make_extended"]}
{"id": "C106", "title": "make_offset_extended and the README experiment", "statement": "make_offset_extended(img, xsh, ysh, noise) is shift2d(img, xsh, ysh) plus noise times the draws, i.e. for whole pixels the rolled image; shifting it back (odd sizes) leaves a residual of exactly the power of the noise; chi2_shift of the image and its copy returns the offset that was put in (whole pixels without noise or with bounded noise; grid offsets for odd sizes). noise_taper=True never completes (TypeError below 30 rows, AttributeError from 30).", "quantifier": "every image, size, offset, noise level, noise draw and chi2_shift setting", "why_tests_cant": "recovery of the offset for every image and every noise field below an explicit level", "anchors": ["image_registration/tests/registration_testing.py:make_offset_extended", "image_registration/tests/registration_testing.py:edge_weight"]}
{"id": "C107", "title": "chi2 of the test helpers against chi2n_map", "statement": "chi2(im1, im2, dx, dy) for whole-pixel offsets is the sum over all pixels of (im1[p]-|im2[p+d]|)^2/err[p+d]^2 with NaN image pixels 0, so for im2 >= 0 exactly the chi2n_map entry of that offset; a zero or NaN error gives no finite value; for fractional offsets im2 is replaced by shift2d(im2,-dx,-dy); for upsample > 1 a complex number comes back, the sum of squares of the differences of the two Fourier interpolants over the first 1/upsample of each axis; at the true offset of a real Fourier-shifted copy it is 0.", "quantifier": "every image pair, NaN pattern, offset, error image and upsample", "why_tests_cant": "agreement of the function with the map at every offset of every image pair", "anchors": ["image_registration/tests/registration_testing.py:chi2"]}
{"id": "C108", "title": "upsample_ft_raw: zero-padded cross-correlation", "statement": "upsample_ft_raw raises ZeroDivisionError for zoomfac=0 and ValueError if an axis longer than 1 is odd or zoomfac=1; for even sizes and zoomfac >= 2 the result has zoomfac times the size and pixel (i,j) is the interpolated circular cross-correlation at lag (i/zoomfac, j/zoomfac) over zoomfac^2, turned by the phase 2*pi*(1/zoomfac-1/2)(i+j); so its modulus is right and for zoomfac=2 the value too, with the plain correlation at whole lags.", "quantifier": "every even size, image pair and zoom factor", "why_tests_cant": "pixelwise identity for every image pair and zoom factor", "anchors": ["image_registration/tests/registration_testing.py:upsample_ft_raw"]}
{"id": "C109", "title": "the repeated-fit experiments", "statement": "do_n_fits and do_n_fits_register return exactly nfits results, the k-th computed from the k-th noise draw; do_n_extended_fits and register_noise_test return nfits (ntests) results if the package progressbar is installed and exactly one otherwise; register_accuracy_test gives one row (y shift, x shift) of register_images per upsampling factor, or TypeError without progressbar; zero padding raises TypeError, doplot without unsharp_mask UnboundLocalError, and unsharp_mask or noise_taper never complete. If every noise draw is below the level of C96, every row of register_noise_test with chi2_shift is exactly the true offset.", "quantifier": "every number of fits, image, offset, noise draw, fitting function and installed-package combination", "why_tests_cant": "a statement about every loop length and every sequence of random draws", "anchors": ["image_registration/tests/registration_testing.py:do_n_fits", "image_registration/tests/registration_testing.py:do_n_fits_register", "image_registration/tests/registration_testing.py:do_n_extended_fits", "image_registration/tests/registration_testing.py:register_noise_test", "image_registration/tests/registration_testing.py:register_accuracy_test", "image_registration/tests/registration_testing.py:fit_extended_shifts"]}
{"id": "C110", "title": "the caller's arrays are not modified", "statement": "chi2n_map, chi2_shift, register_images and cross_correlation_shifts leave every array that exists when they are called exactly as it was - also when they raise, and also when one array object is passed as several of the arguments im1, im2, err (errim1, errim2). Their results depend only on the values of the arguments at the call, not on which of them are the same object; the arrays chi2n_map returns with return_all are new and distinct objects, so changing one of them later changes neither an argument nor another result.", "quantifier": "every state of the caller's arrays, every choice of arguments among them including aliased ones, every pixel content including NaN and zero errors, every keyword setting, normal and exceptional return", "why_tests_cant": "the absence of side effects has to hold for every content and every aliasing pattern of the arguments, and at every point where an exception can be raised", "anchors": ["image_registration/chi2_shifts.py:chi2n_map", "image_registration/chi2_shifts.py:chi2_shift", "image_registration/register_images.py:register_images", "image_registration/cross_correlation_shifts.py:cross_correlation_shifts"]}
{"id": "C111", "title": "register_images gives the exact answer in floating point when the answer is clear", "statement": "Let every arithmetic operation of register_images (FFTs, dftups, products, quotient, modulus, mean, subtraction) have a relative error of at most delta, in any direction. Then every computed correlation modulus is within an explicit bound tau(delta, images) of the exact one. The reported shift correlates as well as every other position searched, up to 2*tau; if at each search the exact best position wins by more than 2*tau the reported shifts are exactly those of exact arithmetic; in particular for im2 = rolled im1 plus noise they are exactly the whole-pixel displacement when the autocorrelation margin exceeds 2*|a|*|noise| + 2*tau. With delta = 0 the computation is the exact one for every input.", "quantifier": "every arithmetic with relative errors at most delta (any error pattern), every image pair of every size incl. NaN pixels, every usfac, zeromean, maxoff", "why_tests_cant": "a test sees the rounding errors of one machine on one image; the claim is about every error pattern and every image", "anchors": ["image_registration/register_images.py:register_images", "image_registration/register_images.py:dftregistration", "image_registration/fft_tools/upsample.py:dftups"]}
{"id": "C112", "title": "Fourier shifts in floating point are as accurate as an explicit bound says", "statement": "Let every arithmetic operation of shift2d and shiftnd (transforms, fftfreq, real and complex products, sums, 2*pi, exp, abs) have a relative error of at most delta, in any direction. Then the result differs from the exact Fourier shift by at most eps*||image|| (root of the sum of squares), with eps = (1+delta)^3*(1 + delta + ((1+delta)^m - 1)*(pi*sum|offsets| + |phase|)) - 1 and m = 6 (shift2d) or D+5 (shiftnd in D dimensions), in every return mode. Hence whole-pixel shifts differ from np.roll by at most that in every pixel, whole-number images come back exactly after rounding when the bound is below 1/2, shifting there and back (complex mode, or odd sizes) returns the image up to (1+eps)^2-1, and total flux is kept up to sqrt(N)*eps*||image||. With delta = 0 the computation is the exact one.", "quantifier": "every arithmetic with relative errors at most delta (any error pattern), every array of every shape and dimension incl. NaN pixels, every offset and phase, every return mode", "why_tests_cant": "a test sees the rounding errors of one machine on one image; the claim is about every error pattern, size and offset", "anchors": ["image_registration/fft_tools/shift.py:shift2d", "image_registration/fft_tools/shift.py:shiftnd"]}
{"id": "C113", "title": "Cross-correlation and chi-squared maps in floating point", "statement": "Let every arithmetic operation of correlate2d (including astropy's scaling of the kernel by any nonzero number) and chi2n_map have a relative error of at most delta < 1, in any direction. Then every entry of correlate2d is within ((1+delta)^6-1)*||im1||*||im2|| of the exact correlation at its lag, and every entry of the chi2n_map is within an explicit bound T (about ten delta times the largest weight times the squared norms) of the exact chi-squared of its displacement. Hence the pixel where the computed map is smallest has an exact chi-squared within 2T of the smallest; a minimum that is clear by more than 2T is found at exactly the same pixel; and an image rolled by whole pixels plus noise is found at the right pixel whenever every other roll differs by more than four times the noise plus 4T. With delta = 0 the computation is the exact one.", "quantifier": "every arithmetic with relative errors at most delta (any error pattern), every pair of equal-shape images incl. NaN pixels, no error, every nonzero scalar error, every error image (incl. zeros and NaNs), zeromean on or off; boundary wrap", "why_tests_cant": "chi-squared is a difference of large numbers, so its relative error is unbounded at the minimum; a test sees one machine's rounding on one image", "anchors": ["image_registration/chi2_shifts.py:chi2n_map", "image_registration/fft_tools/correlate2d.py:correlate2d"]}
{"id": "C114", "title": "Fourier interpolation, zooming and chi2_shift in floating point", "statement": "Let every operation of fourier_interp1d, fourier_interp2d, zoom1d, zoom_on_pixel (np.fft.ifft, fftfreq, products, sums, quotients, exp, np.dot, np.linspace) have a relative error of at most delta, in any direction. Then every interpolated value at coordinate(s) of size B is within an explicit multiple of the norm of the data of the exact one, also when the zoom's coordinates are themselves rounded, and the coordinates are within ((1+delta)^3-1) of their size. Hence chi2_shift always reports, up to the rounding of the coordinates, a grid point around a pixel whose exact chi-squared is within 2T (T of C113) of the smallest, at which the exact zoomed map (without error image: the chi-squared of the images themselves shifted by the reported amount) is within 2*zoomErr of its smallest value on the grid; 'auto' uses an upsampling factor obtained from a region between two exact confidence regions; if both minima are clear the answer is that of exact arithmetic up to rounding of the coordinates; with upsampling factor 1 a whole-pixel roll plus noise is reported as such, up to the rounding of the coordinates, whenever every other roll differs by more than 4*noise + 4*zoomErr. With delta = 0 chi2_shift is the exact one.", "quantifier": "every arithmetic with relative errors at most delta (any error pattern), all data, coordinates, zoom factors, sizes; for chi2_shift every pair of equal-shape images incl. NaN pixels, every error argument (nonzero scalar), zeromean on or off, 'auto' and every valid given factor; boundary wrap", "why_tests_cant": "the reported position is an argmin of an interpolated difference of large numbers; a test sees one machine's rounding on one image", "anchors": ["image_registration/fft_tools/scale.py:fourier_interp1d", "image_registration/fft_tools/scale.py:fourier_interp2d", "image_registration/fft_tools/zoom.py:zoom1d", "image_registration/fft_tools/zoom.py:zoom_on_pixel", "image_registration/chi2_shifts.py:chi2_shift"]}
{"id": "C115", "title": "Error bars in floating point", "statement": "Let every operation of chi2_shift and chi2map_to_errors have a relative error of at most delta < 1, in any direction, and let the map handed to chi2map_to_errors be off by at most E. Then chi2map_to_errors never raises (positive threshold), its four numbers are never negative, and up to ((1+delta)^2-1)*n/zoomfactor they are the distances from a pixel whose exact chi-squared is within 2E of the smallest to the sides of a box around a region that contains every pixel whose exact chi-squared exceeds the minimum by less than threshold/(1+delta)-2E and none that exceeds it by threshold/(1-delta)+2E or more. The error bars chi2_shift reports are, up to rounding, half the extent of such a region of the exact zoomed map; if no grid point is that close to the threshold they are those of exact arithmetic up to rounding. With delta = 0 chi2map_to_errors is the exact one.", "quantifier": "every arithmetic with relative errors at most delta (any error pattern), every map, positive threshold and zoom factor; for chi2_shift every pair of equal-shape images incl. NaN pixels, every error argument (nonzero scalar), zeromean on or off, 'auto' and every valid given factor; boundary wrap", "why_tests_cant": "membership of a pixel in the confidence region is a comparison of rounded numbers; a test sees one machine's rounding on one image", "anchors": ["image_registration/chi2_shifts.py:chi2map_to_errors", "image_registration/chi2_shifts.py:chi2_shift"]}
{"id": "C116", "title": "dftups, odddftups, dftups1d and upsample_image in floating point", "statement": "Let every elementary operation of dftups (real products, sums, quotients, the constant 2*pi, exp, np.dot) have a relative error of at most delta <= 1/2, in any direction. Then every value dftups and odddftups return is within upsErr * sum|input| of the exact one, where upsErr = (1+delta)^2 (1+kappa(a))(1+kappa(b)) - 1, kappa(a) = delta + ((1+delta)^7 - 1)*pi*|a|, and (a, b) is the output point in input pixels; upsample_image is within ((1+delta)(1+upsErr)-1) times the norm of the image; dftups1d's coordinates carry two roundings and its values those of the kernel and the sum. With delta = 0 they are the exact functions.", "quantifier": "every arithmetic with relative errors at most delta (any error pattern), all inputs, output sizes, nonzero upsampling factors, offsets", "why_tests_cant": "the error depends on the offset, the size and the direction of every rounding; a test sees one machine's rounding on one input", "anchors": ["image_registration/fft_tools/upsample.py:dftups", "image_registration/fft_tools/upsample.py:odddftups", "image_registration/fft_tools/upsample.py:dftups1d", "image_registration/fft_tools/upsample.py:upsample_image"]}
{"id": "C117", "title": "register_images in floating point from elementary operations", "statement": "Let the transforms of the image size (and the inverse transform of twice the size), the products, quotients, moduli, differences and the mean have a relative error of at most delta <= 1/2, and let dftups be computed as in upsample.py from elementary operations with that error. Then the statements of C111 hold with delta replaced by the error of dftups within n/2+3/2 pixels (regErr): the shifts found are optimal over the positions searched up to twice the error bound; a clear answer is unchanged by rounding; a whole-pixel roll plus noise with a clear autocorrelation peak is recovered exactly. With delta = 0 register_images is the exact one.", "quantifier": "every arithmetic accurate at the sizes that occur (any error pattern), every pair of equal-shape images incl. NaN pixels, every usfac, zeromean on or off, every maxoff; roll: all displacements and disturbances below the margin", "why_tests_cant": "each peak search is an argmax over rounded sums; a test sees one machine's rounding on one pair of images", "anchors": ["image_registration/register_images.py:register_images", "image_registration/register_images.py:dftregistration", "image_registration/fft_tools/upsample.py:dftups"]}
{"id": "C118", "title": "Symmetries of cross_correlation_shifts", "statement": "Multiplying the two images by factors whose product is positive, and (with zeromean, the default) adding constants to them, changes nothing in the two shifts cross_correlation_shifts returns (gaussfit=False). Rolling both images, and the error images if given, by the same whole-pixel amount changes nothing, whatever the flags. Exchanging the images turns each reported number r into h - r, with h = 1 for an odd size and h = 0 for an even one, when the correlation has a unique peak in the interior whose mirror image is in the interior too.", "quantifier": "every pair of equal-shape images incl. NaN pixels, every error image, maxoff and flag; all factors, constants and rolls; every size", "why_tests_cant": "the peak search compares all pixels of the correlation and the Taylor step divides by data-dependent numbers; invariance must hold for all pairs of images and all factors", "anchors": ["image_registration/cross_correlation_shifts.py:cross_correlation_shifts", "image_registration/cross_correlation_shifts.py:second_derivative", "image_registration/fft_tools/correlate2d.py:correlate2d"]}
{"id": "C119", "title": "Symmetries of register_images", "statement": "Multiplying the images by any nonzero factors, and (with zeromean) adding constants, changes nothing in the shifts and errors of register_images for any usfac and maxoff, and multiplies the registered image by |k2|. Rolling both images by the same whole-pixel amount does not change the shifts and errors. When one displacement is clearly the best match (unique best of the coarse positions, inside half the image, and unique best of the multiples of 1/usfac within a pixel of it) register_images returns exactly it, for every usfac; and exchanging the images then negates the answer.", "quantifier": "every pair of equal-shape images incl. NaN pixels, every usfac >= 0 (>= 1 for the match), maxoff, return_error; all factors, constants and rolls", "why_tests_cant": "the two-stage peak search is an argmax over all positions of a data-dependent function; a test sees one pair of images", "anchors": ["image_registration/register_images.py:register_images", "image_registration/register_images.py:dftregistration"]}
{"id": "C120", "title": "The two axes are treated alike", "statement": "Transposing the images (and error images) transposes the results of shift2d (with the two shifts exchanged), correlate2d and chi2n_map exactly, and makes cross_correlation_shifts, register_images and chi2_shift return their two shifts (chi2_shift also its error bars and coordinate arrays) in the other order, whenever the best match is unique (ties are broken row by row). The one exception: chi2_shift compares only the number of rows with an int upsample_factor, so with ny <= u < nx the upsampled map is 2u x 2u but nx x ny for the transposed images.", "quantifier": "every rectangular size, every pair of images incl. NaN pixels, every error argument, every flag and every upsampling factor; unique best match for the three estimators", "why_tests_cant": "axis confusion shows only on rectangular, asymmetric images, and the peak searches compare all pixels; the symmetry must hold for every size and image", "anchors": ["image_registration/fft_tools/shift.py:shift2d", "image_registration/fft_tools/correlate2d.py:correlate2d", "image_registration/chi2_shifts.py:chi2n_map", "image_registration/chi2_shifts.py:chi2_shift", "image_registration/register_images.py:register_images", "image_registration/cross_correlation_shifts.py:cross_correlation_shifts"]}
{"id": "C121", "title": "Accuracy and size of the sub-pixel correction of cross_correlation_shifts", "statement": "If im2 is im1 rolled by whole pixels plus any disturbance that is small compared with the squared distances between im1 and its own rolls, cross_correlation_shifts(im1, im2) returns finite shifts which differ from the noise-free answer by at most an explicit bound proportional to the norm of the disturbance. In general the correction added to the position of an interior peak is bounded by (X^2+|M||Y|)/(2|XY-M^2|) in the curvatures of the correlation map (half a pixel for a round peak), but it is not bounded by any constant: for every B there are 5x5 images with values in [0,1] and a unique interior correlation peak for which the returned shift is more than B pixels.", "quantifier": "all images, disturbances, whole-pixel rolls with the peak in the interior, zeromean settings, FFT back ends, all bounds B", "why_tests_cant": "a bound for every image and every disturbance, and a family of counterexamples for every constant", "anchors": ["image_registration/cross_correlation_shifts.py:cross_correlation_shifts", "image_registration/cross_correlation_shifts.py:second_derivative"]}
{"id": "C122", "title": "Comparison helpers of image_registration.tests", "statement": "compare_methods(im1, im2, ntests, noise, usfac) returns one row per noise realisation (ntests with the package progressbar, exactly one without), holding the shifts that register_images, cross_correlation_shifts and chi2_shift find between im1 and im2 plus that noise, with zeros in the two columns of the Gaussian fit, and a second array with their errors (1/usfac for register_images); it fails with ValueError if im1 is constant and passes on every exception of cross_correlation_shifts. run_tests and determine_error_offsets never return. error_test raises ZeroDivisionError for noise 0, and its third value is the mean x offset plus ysh and the mean y offset plus xsh, not the difference between measured and true offset.", "quantifier": "all images, noise draws, numbers of tests, noise levels, upsampling factors", "why_tests_cant": "all images and random draws; no test calls these functions", "anchors": ["image_registration/tests/registration_testing.py:compare_methods", "image_registration/tests/registration_testing.py:error_test", "image_registration/tests/registration_testing.py:run_tests", "image_registration/tests/registration_testing.py:determine_error_offsets"]}
{"id": "C123", "title": "cross_correlation_shifts in inexact arithmetic", "statement": "If every transform, sum, product, difference and quotient is carried out with relative error at most d (floating point without overflow, any FFT), then: whenever the exact correlation has a peak clear by more than twice its error bound, larger in size than that bound, outside the first row and column, and with a determinant of second derivatives above its error bound, cross_correlation_shifts returns two finite numbers, within an explicit bound of the exact ones that tends to 0 with d; a clear peak in the first row or column raises ValueError; an image of zeros or NaNs (zeromean=False) gives exactly 0, 0. For an image and its roll by (dy, dx) the answer is dx, dy (plus half a pixel along odd axes) up to (1+d)^2 E/(Delta-E) + d*|answer|. With error-free operations the results are those of the exact model.", "quantifier": "all image sizes and contents (NaNs included), all arithmetics and FFT implementations with relative error at most d, all d < 1", "why_tests_cant": "tests run one arithmetic on a few images; the bound must hold for every rounding pattern and image", "anchors": ["image_registration/cross_correlation_shifts.py:cross_correlation_shifts", "image_registration/cross_correlation_shifts.py:second_derivative", "image_registration/fft_tools/correlate2d.py:correlate2d"]}
{"id": "C124", "title": "chi2_shift with noise and rounding together", "statement": "Computed with operations of relative error at most d, chi2_shift's answer for any two real images, any true displacement and a scalar error differs from the true displacement, modulo the image size, by at most an explicit multiple of (pi times the distance of the displacement from any point of the zoomed grid times the norm of the image, plus twice the norm of the noise, plus the error times the root of twice the rounding bound of the zoomed map), plus the rounding of the reported number itself. With upsample_factor=1, if the exact chi-squared map is below all its other pixels at one pixel by more than twice that rounding bound, the answer is the displacement of that pixel up to ((1+d)^4-1) times twice the image size, for images and errors of any kind (NaNs included).", "quantifier": "all sizes from 2, all images, all displacements, all scalar errors (whole-pixel part: all errors), all valid upsampling arguments, all arithmetics with relative error at most d", "why_tests_cant": "tests see one rounding pattern and one noise sample; the bound must hold for all of them at once", "anchors": ["image_registration/chi2_shifts.py:chi2_shift", "image_registration/chi2_shifts.py:chi2n_map", "image_registration/fft_tools/zoom.py:zoom_on_pixel"]}
{"id": "C125", "title": "convolvend in several threads and over any history of calls", "statement": "convolvend rebinds the module globals fftn/ifftn and works in place on complex arrays. Any number of calls, each with its own FFT settings, interleaved in any way: if the arrays of complex dtype have no NaN, no array is ever changed, every call that finishes has returned or raised what it does alone, and each finishes after at most 20 of its own accesses to shared state. Uninterrupted calls, in any order and with any FFT settings, with or without fftw3, NaNs or not, array and kernel the same object or not, return what they return in a fresh module with numpy's FFT and leave the arrays as a single call does. If a complex array with NaNs is shared by two overlapping calls, there is a schedule in which the second silently treats the NaNs as zeros, and one in which it raises ValueError though alone it succeeds.", "quantifier": "all numbers of calls, all schedules, all histories, all arrays and arguments, fftw3 installed or not", "why_tests_cant": "a test runs one schedule and one history; thread switches inside a call are not under its control", "anchors": ["image_registration/fft_tools/convolve_nd.py:convolvend"]}
{"id": "C126", "title": "chi2_shift and random noise: probability of a wrong pixel", "statement": "Let im2 be im1 rolled by a whole number of pixels plus random noise. With upsample_factor=1 and zeromean=False chi2_shift returns exactly the shift except with probability at most the sum over the other displacements e of 4k/D_e if the noise pixels are uncorrelated with second moments at most k times the squared errors, and at most the sum of exp(-D_e/8k) if they are independent and Gaussian (or sub-Gaussian) with variance at most k times the squared errors, where D_e is the squared difference, in units of the errors, between im1 rolled by e and by the true shift. With independent noise in both images (standard deviations s1, s2, scalar error): at most the sum of 4(D_e(s1^2+s2^2)+2 N s1^2 s2^2)/D_e^2. The expected value of every entry of the chi2n_map is the noise-free entry plus the sum of the noise variances in units of the squared errors (the number of pixels if the errors are right).", "quantifier": "all probability spaces and noise distributions with the stated moments, all images, sizes, shifts and errors", "why_tests_cant": "a test draws finitely many noise samples from one distribution", "anchors": ["image_registration/chi2_shifts.py:chi2_shift", "image_registration/chi2_shifts.py:chi2n_map"]}
{"id": "C127", "title": "register_images, cross_correlation_shifts and sub-pixel answers under random noise", "statement": "Let im2 be im1 rolled by whole pixels plus random noise, a the (mean-subtracted) first image. register_images with usfac=1 returns exactly the shift except with probability at most the sum over the other displacements of 4k/D_e + 4k/S_e (uncorrelated noise, second moments at most k), or of exp(-D_e/8k)+exp(-S_e/8k) (independent Gaussian), with D_e and S_e the squared norms of the difference and the sum of the rolled images; with any usfac, except with probability 4|a|^2 sum(tau^2)/m^2 if the self-correlation at the other candidates stays below its maximum by m. For sub-pixel displacements the accuracy bounds of chi2_shift (C97), register_images (C103) and cross_correlation_shifts (C121) hold with the noise norm replaced by r, except with probability sum(tau^2)/r^2, for every r.", "quantifier": "all probability spaces and noise distributions with the stated second moments, all images, sizes, shifts, upsampling factors and r", "why_tests_cant": "a test draws finitely many noise samples from one distribution", "anchors": ["image_registration/register_images.py:register_images", "image_registration/chi2_shifts.py:chi2_shift", "image_registration/cross_correlation_shifts.py:cross_correlation_shifts"]}
{"id": "C128", "title": "chi2_shift returns an optimal displacement", "statement": "Whatever the two images, chi2_shift with upsample_factor=1 returns a whole-pixel displacement whose weighted sum of squared differences between the moved first image and the second image is the least over all whole-pixel displacements (boundary='wrap': periodic; 'fill': with zeros moving in, over displacements by at most half an image, up to whole image sizes); if the noise is independent and normal with the given errors this is a maximum-likelihood displacement. With a scalar error and larger integer factors the second image shifted back by the returned amount is at least as close to the first as for every whole-pixel displacement, provided the search grid contains the pixel positions (odd sizes, or odd factors below the size; even sizes for factors from the number of rows on, if odd).", "quantifier": "every pair of images of at least two rows, every nonzero error, zeromean setting and FFT backend; every stated upsampling factor", "why_tests_cant": "optimality is a statement about all displacements for all pairs of images, related or not", "anchors": ["image_registration/chi2_shifts.py:chi2_shift", "image_registration/chi2_shifts.py:chi2n_map"]}
{"id": "C129", "title": "the answers converge to the true displacement as the upsampling factor grows", "statement": "If the whole-pixel displacement at which the two images agree best is the true displacement d rounded to whole pixels (modulo the image size), the answer of chi2_shift with an integer upsample_factor u of at least the number of rows differs from d, modulo the image size, by at most an explicit constant of the image times (pi*|im1-m|/u + 2*|noise|); so without noise it converges to d as u grows. register_images with usfac>2 converges at the same rate under the corresponding condition on half-pixel displacements. The conditions hold for every displacement of a constant plus one wave along each axis (for register_images, which compares moduli, with zeromean=False and a constant C with C^2 >= (A^2+B^2)/2), where the bounds are pi*n*(|A|+|B|)/(2|A|u) for chi2_shift and pi*n/(2u)*sqrt((C^2+A^2/4)(C^2+(A^2+B^2)/2)/(C^2 A^2)) for register_images.", "quantifier": "all images, sizes, real displacements, noise, scalar errors, upsampling factors, installations", "why_tests_cant": "a limit over all upsampling factors and a bound for every image and displacement", "anchors": ["image_registration/chi2_shifts.py:chi2_shift", "image_registration/register_images.py:register_images", "image_registration/register_images.py:dftregistration", "image_registration/fft_tools/zoom.py:zoom_on_pixel"]}
{"id": "C130", "title": "integer images", "statement": "For images of an integer dtype: chi2n_map and chi2_shift return what they return for the same numbers stored as floats when zeromean=True or when all squared pixel values are in the range of the dtype. With zeromean=False and no error array, squares that wrap add one constant to the whole chi-squared map (negative or zero for unsigned dtypes, so chi-squared can be negative), and chi2_shift still returns the same shifts and error bars, for every upsampling factor, boundary and option. With an error array the change depends on the displacement, and there are 8-bit images for which chi2_shift reports a one-pixel shift between identical images. iterative_zoom is unaffected for the minimum of unsigned images and when the largest difference of pixels is less than half the range of the signed dtype; for the maximum of an unsigned image the first test wraps, and an image with a pixel far enough below the maximum (0 and 255 for 8 bits) makes it stop before the first zoom: UnboundLocalError.", "quantifier": "all integer dtypes (any width, signed or not, different for the two images), images, sizes, scalar errors and float error images, boundaries, upsampling factors, options", "why_tests_cant": "the effect of wrapping on every image and dtype; the invariance of the reported shift for every image without an error array", "anchors": ["image_registration/chi2_shifts.py:chi2n_map", "image_registration/chi2_shifts.py:chi2_shift", "image_registration/iterative_zoom.py:iterative_zoom"]}
{"id": "C131", "title": "how long iterative_zoom runs, and iterative_zoom in floating point", "statement": "iterative_zoom with zoomshape (m, l), zoomstep > 1 and mindiff > 0 makes at most max(1, ceil(log(pi*sqrt(sum((x-mean x)^2))*(m+l-2)/mindiff)/log(zoomstep))) zooms, whatever the image, and the zoom factor it returns is at most zoomstep to that power (iterative_zoom_1d: l-1 instead of m+l-2). In floating point, each operation accurate to a relative delta: it still stops within an explicit number of zooms provided mindiff exceeds an explicit multiple of the rounding errors; it returns an answer rather than an error if all pixels that differ from the extremum differ from it by more than mindiff/(1-delta); the centre returned stays within (zoomshape-1)/(2(q-1)) pixels of the extremum pixel plus the accumulated coordinate rounding, and for an odd zoomshape the interpolated image there is at least as extreme as every pixel up to an explicit accumulated loss; the offset convention differs from the centre by one rounding; with delta = 0 this is the exact function.", "quantifier": "all finite real images, sizes, mindiff, zoomshape, zoomstep > 1, minmax, return options; all ways the rounding errors can fall", "why_tests_cant": "termination and error bound of a data-dependent loop, for every image and every rounding", "anchors": ["image_registration/iterative_zoom.py:iterative_zoom", "image_registration/iterative_zoom.py:iterative_zoom_1d"]}
{"id": "C132", "title": "the README recipe in floating point", "statement": "Calling chi2_shift(im1, im2) and then shift2d(im2, -xoff, -yoff), every operation accurate to a relative delta: the corrected image is as close to im1 (root of the sum of squared differences) as im2 Fourier-shifted to any point of the search grid, up to |err|*sqrt(2*zoomErr) for the search plus (pi times the rounding of the two shifts plus the rounding of shift2d) times the norm of im2. If im2 is im1 rolled by whole pixels plus noise below an explicit level, the corrected image is im1 plus the noise rolled back, up to the second term. For every tolerance there is an accuracy of the arithmetic such that both shifts and every pixel of the corrected image are right to within that tolerance.", "quantifier": "all real images, sizes, errors, upsampling factors (first part), whole-pixel displacements and noise (second), all ways the rounding errors can fall", "why_tests_cant": "error bound over every image and every rounding of a two-step pipeline", "anchors": ["image_registration/chi2_shifts.py:chi2_shift", "image_registration/fft_tools/shift.py:shift2d", "README.md"]}
{"id": "C133", "title": "moving an image and registering again", "statement": "Rolling the second image (and its error image, which must have no zero or NaN pixel) by whole pixels moves the answer of chi2_shift by exactly that much, up to whole image sizes, and leaves the error bars and the values of the upsampled map unchanged; rolling the first image moves it the other way, with the error image left in place (explicit upsample_factor, one best pixel in the chi-squared map). With upsample_factor=1, after the second image has been shifted back by the measured amount chi2_shift returns exactly [0, 0]. Repeating measure-and-shift-back any number of times (scalar error, factors whose grid contains the best whole pixel): every pass returns, no pass increases the sum of squared differences to the first image, and these sums converge. For an even number of rows and an even upsample_factor the measured vertical shift is never within 1/(2 upsample_factor) of a whole pixel, even for identical images.", "quantifier": "all images, errors, sizes, displacements, numbers of passes", "why_tests_cant": "equivariance and monotonicity over all images and any number of repetitions", "anchors": ["image_registration/chi2_shifts.py:chi2_shift", "image_registration/chi2_shifts.py:chi2n_map", "image_registration/fft_tools/shift.py:shift2d", "README.md"]}
{"id": "C134", "title": "moving an image and calling register_images again", "statement": "When one displacement is clearly the best match (unique best coarse displacement inside the image, unique best fine one around it), rolling the second image by whole pixels moves the answer of register_images by exactly that much, up to whole image sizes, and rolling the first image moves it the other way, for every usfac. If the answer is a whole number of pixels (of half pixels for usfac >= 2; always so for usfac <= 2) and the second image Fourier-shifted back by it is real, register_images of the first and the shifted-back second image returns [0, 0].", "quantifier": "all images (NaNs allowed for rolls), sizes, usfac, displacements", "why_tests_cant": "equivariance over all images and displacements", "anchors": ["image_registration/register_images.py:register_images", "image_registration/register_images.py:dftregistration", "image_registration/fft_tools/shift.py:shift2d"]}
{"id": "C135", "title": "moving an image and calling cross_correlation_shifts again", "statement": "If the correlation of the two images has a unique nonzero largest value which is not on the border of the map, and is not on the border either after the move, rolling the second image by (dy, dx) adds exactly (dx, dy) (up to whole image sizes) to the shift cross_correlation_shifts reports (gaussfit=False), sub-pixel part included, and leaves the reported errors unchanged; rolling the first image subtracts it. Moving the second image back by the answer rounded to whole pixels and measuring again therefore returns exactly the remainder. But for every pair of images with a unique nonzero correlation peak there is a roll of the second image for which the call raises ValueError.", "quantifier": "every pair of equal-shape images incl. NaN pixels, error images, return_error and zeromean flags, sizes and whole-pixel displacements", "why_tests_cant": "equivariance over all images and displacements", "anchors": ["image_registration/cross_correlation_shifts.py:cross_correlation_shifts"]}
{"id": "C136", "title": "moving an image and calling chi2_shift again with the automatic upsampling factor", "statement": "With the default upsample_factor='auto', when the chi-squared map has one best pixel and the pixels below the threshold of the automatic choice stay in one piece (they are all moved without any of them passing the edge of the map alone), rolling the second image and its error image by (dy, dx) adds exactly (dx, dy) to the reported shift, up to whole image sizes, and leaves the error bars, the grid spacing and the values of the upsampled map unchanged; rolling the first image subtracts it. When the region is cut by the edge of the map this fails: if two neighbouring columns reach below the threshold, some roll of the second image makes chi2_shift choose a grid whose points are at least min(1, 2(nx-1)/max_auto_size) apart, however small the region.", "quantifier": "every pair of equal-shape images incl. NaN pixels, errors, statistics, max_auto_size, max_nsig, sizes and whole-pixel displacements", "why_tests_cant": "equivariance over all images and displacements; the failure needs the region at the edge", "anchors": ["image_registration/chi2_shifts.py:chi2_shift"]}
{"id": "C137", "title": "The error bars of chi2_shift cover the true displacement", "statement": "Every displacement of the zoomed grid whose chi-squared is within the one-sigma threshold T of the minimum lies within twice the reported error bars of the reported shift, in x and in y. Hence, if the second image is the Fourier-shifted first image plus a disturbance whose sum of squares (in units of the error) is below T, and the displacement is a point of the grid, it lies within twice the error bars. With random noise: if the second image is the first shifted by (dx, dy) plus uncorrelated noise of second moments at most kappa times the squared error, the probability that (dx, dy) is a point of the returned grid and yet lies outside twice the error bars is at most the sum, over the displacements e the grid can hold, of 4 kappa D_e/(D_e+T)^2, where D_e is the squared difference (in units of the error) of the first image shifted by e and by (dx, dy) (terms with D_e = 0 left out); for independent sub-Gaussian, in particular Gaussian, noise of exp(-(D_e+T)^2/(8 kappa D_e)).", "quantifier": "all images, errors, upsampling arguments (region statement); all images, scalar errors and disturbances; all images, real displacements whose Fourier shift is real, scalar errors, noise distributions, integer upsampling factors", "why_tests_cant": "A statement about every noise distribution and image; coverage of error bars can only be sampled by simulation.", "anchors": ["image_registration/chi2_shifts.py: chi2_shift", "image_registration/chi2_shifts.py: chi2n_map", "image_registration/fft_tools/shift.py: shift2d"]}
{"id": "C138", "title": "The chi-squared map is a log-likelihood and the answer a maximum-likelihood estimate", "statement": "The documentation says the method is statistically equivalent to a maximum-likelihood estimator. With a scalar error s, every value of the returned chi-squared map is twice the amount by which the log-likelihood of the second image (independent normal pixels of standard deviation s around the first image, shifted by the displacement of the grid point and with the imaginary part dropped as shift2d does) falls short of a perfect match, plus the energy of the dropped imaginary part in units of s. For odd image sizes that part is zero, so the returned shift maximises the likelihood over the displacements of the grid, and every displacement of the grid whose log-likelihood is within half the one-sigma threshold of the best lies within twice the reported errors of the returned shift. For even sizes it can fail: there are images for which another displacement of the same grid reproduces the second image exactly and the returned one does not.", "quantifier": "all real images, scalar errors, statistics, upsampling arguments ('auto', int, float), max_auto_size; odd sizes for the maximum-likelihood statement", "why_tests_cant": "optimality over the whole grid for every pair of images", "anchors": ["image_registration/chi2_shifts.py: chi2_shift", "image_registration/chi2_shifts.py: chi2n_map", "image_registration/fft_tools/shift.py: shift2d", "docs/index.rst"]}
{"id": "C139", "title": "Mirrored images give mirrored answers", "statement": "Flipping both images (and the error image) left-right, upside-down or both flips every result: shift2d of the flipped array with the shift negated along the flipped axes is the flipped result (flipped axes of odd size, any complex array with NaN, any phase, every output form; for real images with real output one odd size is enough, and a rotation by 180 degrees works for all sizes); correlate2d and chi2n_map hold at each pixel the value of the flipped displacement, for all sizes and flags; chi2_shift, for odd flipped axes and unique minima, negates the shift along the flipped axes, keeps the error bars and flips the arrays; register_images does the same when one displacement is clearly the best (rotation by 180 degrees for all sizes); cross_correlation_shifts replaces a reported number r by h - r, with h = 1 for an odd size and 0 for an even one. Deviation: with two even sizes, for every pair of shifts that are both not whole numbers there is a real image whose flipped version is not shifted to the flipped result.", "quantifier": "all images (NaN allowed), error arguments, shifts, phases, flags, flipped axes, upsampling arguments, usfac, sizes of the stated parity", "why_tests_cant": "an equivariance over all inputs; a confusion of sign or off-by-one in one axis shows only for particular sizes and contents", "anchors": ["image_registration/fft_tools/shift.py: shift2d", "image_registration/fft_tools/correlate2d.py: correlate2d", "image_registration/chi2_shifts.py: chi2n_map, chi2_shift, chi2map_to_errors", "image_registration/register_images.py: register_images", "image_registration/cross_correlation_shifts.py: cross_correlation_shifts"]}
{"id": "C140", "title": "Shifting, interpolating and zooming a Gaussian star moves the star", "statement": "A Gaussian star of any widths, centred anywhere in the frame and sampled on the pixels, comes out of shiftnd (any number of dimensions), shift2d, fourier_interp1d/2d, zoom1d, zoom_on_pixel and zoomnd as the displaced (or resampled) star, up to an explicit error budget with three terms per axis: aliasing (the amplitude of the star above the Nyquist frequency), light wrapped around from the neighbouring copies of the star, and light cut off by the frame. For a width of one pixel in the middle of a frame of at least nine pixels per axis (the scene of the project's own tests) and any real shift of at most 2.5 pixels, the result is everywhere within 0.05 of the displaced star, in one and in two dimensions; a full-size zoom by any integer factor is everywhere within 0.017. A shift of any length gives the star repeated with the period of the frame: in nine pixels a shift by 2.5 leaves more than 0.035 on the pixel 6.5 pixels away from the new centre.", "quantifier": "all frame sizes (at least 9 for the numbers), dimensions, widths, centres in the frame, real shifts, coordinates, upsampling factors and output sizes", "why_tests_cant": "the tests try eleven shifts and eighteen sizes; the claim is for all of them, with an infinite Fourier series behind it, and the two-dimensional assertions of the tests are one-sided because of a misplaced parenthesis", "anchors": ["image_registration/fft_tools/shift.py: shiftnd, shift2d", "image_registration/fft_tools/scale.py: fourier_interp1d, fourier_interp2d", "image_registration/fft_tools/zoom.py: zoom1d, zoom_on_pixel, zoomnd", "image_registration/fft_tools/tests/test_shift.py: test_shifts_1d, test_shifts_2d, test_shifts_2d_asymm", "image_registration/fft_tools/tests/test_upsample_1d.py"]}
{"id": "C141", "title": "Registering two images of a Gaussian star finds its displacement", "statement": "Two images of a Gaussian star (any width, any height of either sign, the same width on both axes), the second one with the star moved by any real displacement and with arbitrary additional noise, the star staying at least h pixels away from the edges in both: with or without zeromean, and for every usfac, register_images reports a displacement whose distance from the true one (modulo the size of the frame) is, squared, at most 1/(2 usfac^2) - the nearest point of the grid of step 1/usfac - up to 4 sigma^2 kappa/(exp(-1/(8 usfac^2 sigma^2)) - kappa), where kappa is an explicit budget for sampling, the edges of the frame and the noise. For a star of width 3 in 100 x 100 pixels, at least 25 pixels from the edges, this is 1/(2 usfac^2) + 1e-5 + 15 noise for noise up to 0.005 heights.", "quantifier": "all frame sizes, star widths, heights, centres, real displacements, noise images and usfac within the stated budget; all centres, displacements, heights, noise images and usfac for the numerical case", "why_tests_cant": "the tests register a handful of random stars; the claim is for every position, displacement and noise image and needs the correlation of the sampled star at every trial shift", "anchors": ["image_registration/register_images.py: register_images, dftregistration", "image_registration/tests/registration_testing.py"]}
{"id": "C142", "title": "chi2_shift finds the displacement of a Gaussian star", "statement": "Two images of a Gaussian star of any width sigma and any height, the second one moved by any real displacement and with arbitrary additional noise, the star staying at least h pixels away from the edges in both: for any scalar error, with or without zeromean, with upsample_factor='auto' (max_auto_size at least 2), an integer factor of at least the number of rows or at most half of both sizes, or a floating-point factor from 1 to half of both sizes, chi2_shift reports a displacement whose distance from the true one (modulo the size of the frame) is, squared, at most 2 g^2 + 4 sigma^2 kappa/(exp(-g^2/(2 sigma^2)) - kappa) with g = 1/(2u) + tau, where 1/u is the step of the returned coordinates and kappa, tau are explicit budgets for sampling, the edges of the frame and the noise. For a star of width 3 in 100 x 100 pixels, at least 25 pixels from the edges, and noise r of up to 0.005 heights, this is 2(1/(2u) + 1e-5 + 15 r)^2 + 1e-5 + 16 r.", "quantifier": "all frame sizes, star widths, heights, centres, real displacements, noise images, scalar errors and upsampling factors within the stated budget; all of these for the numerical case", "why_tests_cant": "the tests try a handful of offsets and factors on random fields; the claim is for every position, displacement and noise image and needs the correlation of the sampled star at every trial shift, including the integer first pass", "anchors": ["image_registration/chi2_shifts.py: chi2_shift, chi2n_map", "image_registration/fft_tools/zoom.py: zoom_on_pixel", "image_registration/tests/registration_testing.py"]}
{"id": "C143", "title": "chi2_shift finds a Gaussian star in random noise", "statement": "The second image shows the Gaussian star of the first one, moved by any real displacement, plus independent random noise in every pixel (Gaussian, or sub-Gaussian with variance proxy at most v); the star stays at least h pixels away from the edges. For any scalar error, with or without zeromean, and an integer upsample_factor u whose zoomed window is wide enough, and for every number k of standard deviations: except with probability at most N (1 + N) exp(-k^2/2), N the number of pixels, chi2_shift reports a displacement within sqrt(2)/(2u) + rho of the true one (modulo the size of the frame), where rho = 2 sqrt(2) sigma m / q + small terms, m = k sqrt(v)/(|A| sigma sqrt(pi)): the error is proportional to the noise and inversely proportional to the height of the star. For a star of width 3 in 100 x 100 pixels, at least 25 pixels from the edges, with Gaussian noise of standard deviation f <= 1/20 of its height and u <= 19: within sqrt(2)/(2u) + 1/40 + 15 f pixels, except with a probability of 1/10000.", "quantifier": "all probability spaces and noise distributions of the kind, frame sizes, star widths, heights, centres, real displacements, scalar errors, factors and confidence levels k meeting the stated conditions", "why_tests_cant": "the tests run a few random realisations with fixed tolerances; the claim bounds the probability of a failure over all realisations, displacements and noise levels", "anchors": ["image_registration/chi2_shifts.py: chi2_shift, chi2n_map", "image_registration/tests/registration_testing.py"]}
{"id": "C144", "title": "A star that moved by less than half of the frame: the true displacement is reported", "statement": "C141-C143 locate a Gaussian star modulo the size of the frame. If the star moved by less than about half of the frame (register_images: less than half of the frame minus one pixel and the accuracy; chi2_shift with an explicit upsample_factor u: less than half of the frame minus half of the zoomed window, n/(2u) pixels, half a pixel and the accuracy), then register_images and chi2_shift (noise-free reference, deterministic or random noise in the second image) report the true displacement within the accuracy of C141, C142, C143, with no multiple of the frame added. For every pair of images chi2_shift with an explicit factor reports at most half of the frame plus half of the zoomed window plus half a pixel. For a star of width 3 in 100 x 100 pixels, at least 25 pixels from the edges: displacements up to 47 pixels for register_images, up to 40 pixels for chi2_shift with u from 8 to 50.", "quantifier": "all frame sizes, star widths, heights, centres, real displacements, noises, scalar errors and factors meeting the stated conditions; the range of chi2_shift for all images and errors", "why_tests_cant": "the tests fix a few displacements and one frame size; whether a multiple of the frame is added depends on every displacement, factor and rounding of the peak", "anchors": ["image_registration/register_images.py: register_images", "image_registration/chi2_shifts.py: chi2_shift", "image_registration/tests/registration_testing.py"]}
{"id": "C145", "title": "A stack of noisy exposures of one scene is registered exactly and consistently", "statement": "Every exposure of a stack shows the same scene, moved by its own whole-pixel displacement, plus its own disturbance of norm at most v - the reference exposure too. If the autocorrelation of the scene (mean-subtracted with zeromean) at every other candidate displacement stays below its value at 0 by more than 2(2|a|v + v^2), register_images returns for every pair of exposures exactly the difference of their displacements (modulo the frame, -n <= 2r < n), for every usfac; chi2_shift with upsample_factor=1 and a scalar error does so if the scene differs from every other roll of itself by more than 6v. Hence the answers are consistent: they are antisymmetric and add up around every chain of exposures (modulo the frame); and the exposures shifted back with shift2d by the answers relative to any reference show the scene exactly where the reference has it, each with its own disturbance, so a stack is not smeared.", "quantifier": "all frame sizes, scenes, index sets of exposures, whole-pixel displacements, disturbances and factors meeting the stated conditions", "why_tests_cant": "the tests compare one noisy image with a noise-free reference; consistency ranges over all pairs and chains of exposures and all disturbances", "anchors": ["image_registration/register_images.py: register_images", "image_registration/chi2_shifts.py: chi2_shift", "image_registration/fft_tools/shift.py: shift2d", "README.md"]}
{"id": "C146", "title": "register_images for every number usfac and every integer maxoff", "statement": "register_images accepts more than its documented arguments. usfac=0 is a ValueError. Every other number up to 2, other than 1 - fractions and negative numbers included - gives the shifts of usfac=2 (half pixels) with 1/usfac as error entries; with return_registered a negative usfac is an UnboundLocalError. For every real usfac>2 the call succeeds: the first estimate maximises the modulus of the Fourier-interpolated cross-correlation over all half-pixel displacements, the reported shifts are multiples of 1/usfac within 3/4+1/usfac pixels of it and maximise that modulus over the refinement grid; so with a fractional usfac a displacement d for which usfac*d is not an integer is never reported, not even for an image and its own whole-pixel roll. A negative maxoff is read as a Python slice bound: up to half of the searched correlation it limits nothing, on square images -j means N-j (N the size of the searched correlation), and once it reaches an axis every pair of images is reported as displaced by [0,0] (usfac up to 2). For the documented arguments the model is the one of all other properties.", "quantifier": "all images, all real usfac, all integer maxoff, all flags", "why_tests_cant": "the tests use usfac 1 or small integers and no maxoff; the set of numbers accepted is infinite and the statement is about every image", "anchors": ["image_registration/register_images.py: register_images, dftregistration"]}
{"id": "C147", "title": "Bad pixels: blanked pixels are harmless, unflagged ones decide the answer", "statement": "Without zeromean every NaN pixel counts as 0, for register_images and chi2_shift, all factors and flags. So exposures of one scene with any pixels blanked (NaN) and with noise in the others are registered exactly and consistently if the norm of what is lost - the scene in the blanked pixels, the disturbance elsewhere - is small against the margin of the scene (register_images, every usfac: autocorrelation margin 2(2|f|v+v^2); chi2_shift with upsample_factor=1 and scalar error: 6v), wherever the blanked pixels are. Unflagged bad pixels are not harmless: if the same pixel of both images is hot by A, at least five (register_images, usfac=1) or seven (chi2_shift) times the norm of everything else in each image, [0,0] is reported however the images are displaced; if they are hot (in the same or in different pixels) by at least fifteen times that norm, usfac=2 reports the displacement between the hot pixels exactly and larger factors report it to within sqrt(8r+4r^2) pixels per axis, r that norm over A, up to whole frames; and if one pixel q of image 2 only is hit by A with A*gamma > 2|f||g|, gamma the margin by which pixel m is the brightest of image 1, the displacement from m to q is reported, whatever image 2 shows.", "quantifier": "all frame sizes, scenes, displacements, disturbances, sets of blanked pixels, hot pixels and amplitudes meeting the stated conditions", "why_tests_cant": "the tests register images without bad pixels; the sets of bad pixels and the scenes are arbitrary", "anchors": ["image_registration/register_images.py: register_images", "image_registration/chi2_shifts.py: chi2_shift, chi2n_map"]}
{"id": "C148", "title": "Pixels marked bad in the error image count with error 1", "statement": "chi2_shift with an error image in which some pixels are 0 or NaN is chi2_shift with these pixels blanked in both images and the error 1 in them (without zeromean; every boundary mode, factor and flag). Hence marked pixels are not ignored: if every displacement other than 0 brings an unmarked pixel of image 1 to a marked one (always so for one marked pixel), the unmarked pixels of image 1 are at least mu in modulus and the chi-squared of the undisplaced images over the unmarked pixels is below mu^2, [0,0] is reported (upsample_factor=1) whatever the true displacement; so for any two images, the first without zero pixels, and any errors with one marked pixel there is a unit such that with images and errors expressed in it, or in any smaller one, [0,0] is reported. Without marked pixels (NaNs in the images allowed) the chi-squared map does not depend on the unit.", "quantifier": "all images, error images, sets of marked pixels, units and flags meeting the stated conditions", "why_tests_cant": "the tests use error images without zeros or NaNs and one choice of units; the claim is about every image, mask and unit", "anchors": ["image_registration/chi2_shifts.py: chi2n_map, chi2_shift"]}
{"id": "C149", "title": "Smoothing with convolvend: flux, noise, range, displacement and order", "statement": "With boundary='wrap' (kernel not larger than the array, no normalisation option): the total of the result is the total of the array (NaN as 0) times that of the kernel, and its norm is at most that of the array times the sum of the moduli of the kernel; smoothing commutes with whole-pixel displacements for every NaN treatment and min_wt (kernel of sum 1); two smoothings can be exchanged. With interpolate_nan=True and a non-negative kernel of sum 1 (boundary='wrap', or fill 0 with ignore_edge_zeros=True) no output pixel with positive weight not below min_wt leaves the range of the pixels that are not NaN. Hence two images, one a whole-pixel roll of the other with its NaNs, may be smoothed by the same call before registration: register_images finds the displacement in the smoothed images if the smoothed image is free of NaN and identifiable.", "quantifier": "all dimensions, shapes, arrays with NaNs, kernels, displacements, min_wt, FFT configurations", "why_tests_cant": "the tests smooth a few small arrays; the claims are about every array, kernel and displacement", "anchors": ["image_registration/fft_tools/convolve_nd.py: convolvend", "image_registration/register_images.py: register_images"]}
{"id": "C150", "title": "Registering at low resolution: downsample and displacements", "statement": "When f divides both axes: moving an image by a multiple of f pixels and downsampling it by f is the same as downsampling it and moving the result, for every estimator and with NaNs. Without NaNs the result holds the block means, keeps the mean of the image, stays within its bounds, and f^2 times its sum of squares is at most that of the image (noise shrinks by f at least). Hence exposures of one scene, each within f*nu of the scene moved by a multiple of f, may be downsampled before registration: if the low-resolution scene is distinguishable from its other moves by the stated margin, register_images and chi2_shift on the low-resolution exposures give answers that times f are the full-resolution displacements, in range and consistent. A displacement that is not a multiple of f acts as a disturbance no larger than the change of the scene under the remainder.", "quantifier": "all image sizes divisible by f, factors f, scenes, exposures, displacements, estimators (first claim), usfac, FFT configurations", "why_tests_cant": "no test downsamples before registering; the claims are about every image, factor and displacement", "anchors": ["image_registration/fft_tools/downsample.py: downsample", "image_registration/register_images.py: register_images", "image_registration/chi2_shifts.py: chi2_shift"]}
{"id": "C151", "title": "What resampling keeps", "statement": "fourier_interp2d is linear (complex mode with complex coefficients, default mode with real ones); rolling the image by whole pixels is the same as moving the coordinates back, and for upsample_image it is absorbed by xshift and yshift; the transposed image at exchanged coordinates gives the transposed result; no interpolated value changes by more than the root of the summed squared change of the image. On an output that covers the whole field (upsample_image at its default size with any shifts; zoom_on_pixel and zoom1d at any factor usfac >= 1 with usfac times as many pixels per axis, on any target) the pixels sum to usfac per axis times the sum of the image, the squared moduli likewise (default real mode: the sum exactly, the squares at most), and nothing is lost: interpolating the output is interpolating the image. Upsampling twice is upsampling once by the product of the factors.", "quantifier": "all image sizes, image values, coordinates, factors, targets, shifts, modes and FFT configurations", "why_tests_cant": "the existing tests compare zooms of one Gaussian within tolerances; conservation, linearity and composition are claims about every image, factor and offset", "anchors": ["image_registration/fft_tools/scale.py: fourier_interp2d", "image_registration/fft_tools/zoom.py: zoom1d, zoom_on_pixel", "image_registration/fft_tools/upsample.py: upsample_image"]}
{"id": "C152", "title": "Registering upsampled images gives sub-pixel displacements exactly", "statement": "If im2 is im1 moved by (dx,dy) with a Fourier shift whose result is real (any image when the sizes are odd) and us*dx, us*dy are whole numbers, then upsample_image of im2 by us is upsample_image of im1 rolled by (us*dx, us*dy) whole pixels. Registering the real parts of the two upsampled images - register_images with any positive usfac, or chi2_shift with upsample_factor=1 and a uniform error - returns whole numbers of fine pixels, which divided by us are (dx,dy) up to whole image lengths, in [-n/2, n/2); for odd sizes and displacements in that range exactly us*(dx,dy). The image need only have nonzero FFT at the lowest frequencies.", "quantifier": "all image sizes of at least 3 per axis, images, displacements, factors, usfac, sampling shifts, estimates of error and FFT configurations", "why_tests_cant": "no test upsamples before registering; exactness for every image, displacement and factor cannot be sampled", "anchors": ["image_registration/fft_tools/upsample.py: upsample_image", "image_registration/fft_tools/shift.py: shift2d", "image_registration/register_images.py: register_images", "image_registration/chi2_shifts.py: chi2_shift"]}
{"id": "C153", "title": "The algebra of convolvend", "statement": "With boundary='wrap' (kernel not larger than the array) or 'fill'/None (fill_value 0): the result is linear in the array for every NaN treatment and min_wt (kernel of sum 1, NaNs at the same pixels), and linear in the kernel; a single bright pixel comes back as the kernel, not mirrored, with kernel pixel t//2 at its place; mirroring array and kernel along axes of odd kernel size mirrors the result, for every NaN treatment and fill value; a non-negative kernel keeps the order of two arrays; for odd kernels the transposed operation is the same call with the mirrored kernel; with boundary='wrap' two calls are one call with the composed kernel of size t+t'-1 (one of the two sizes odd along each axis).", "quantifier": "every number of dimensions, array and kernel size, content, NaN pattern, coefficients, padding option and FFT configuration", "why_tests_cant": "tests sample a few arrays and kernels; orientation and centring errors show only for unsymmetric kernels and some parities, linearity and composition are claims about all pairs of arrays", "anchors": ["image_registration/fft_tools/convolve_nd.py: convolvend"]}
{"id": "C154", "title": "Mirrored images, resampled", "statement": "Interpolating the flipped image at coordinates counted from the other end gives the same values; zoom_on_pixel of the flipped image on the flipped target, zoomnd and zoom1d with the offsets negated along the flipped axes, and upsample_image with shift upsample_factor-1-shift along them, give the flipped result. This holds for any complex image if the flipped axes have odd size; in the default real mode for a real image if one of the sizes is odd or both axes are flipped (zoom1d: any size); rotated by 180 degrees a real image of any size gives the complex conjugate from upsample_image.", "quantifier": "every image size and content, coordinates, target, zoom factor, output size, sampling shift and FFT configuration", "why_tests_cant": "an off-by-one in a coordinate convention shows only for particular sizes and factors; the symmetry is a claim about all of them", "anchors": ["image_registration/fft_tools/scale.py: fourier_interp2d", "image_registration/fft_tools/zoom.py: zoom1d, zoom_on_pixel, zoomnd", "image_registration/fft_tools/upsample.py: upsample_image"]}
{"id": "C155", "title": "Registering a Gaussian star in random noise", "statement": "If the second image shows the star of the first one displaced, plus independent sub-Gaussian noise in every pixel, and k standard deviations of the noise are small against the star (explicit conditions, met for instance by a star of width 3 in a 100 x 100 image with noise up to 1/150 of its height), register_images - with or without zeromean and for every usfac - reports the displacement, modulo the size of the frame, to within sqrt(2)/(2*usfac) plus a term that is proportional to the noise relative to the height of the star (and not only modulo the frame if the displacement stays below half of it), except with probability at most (8 + 32*usfac^2*N)*exp(-k^2/2), where k is the chosen number of standard deviations and N the number of pixels.", "quantifier": "every image size, star width, height, position and displacement with the star away from the edges, every noise law with independent sub-Gaussian pixels, usfac, zeromean and FFT configuration", "why_tests_cant": "a statement about the probability over all noise realisations; a test sees a handful of seeds", "anchors": ["image_registration/register_images.py: register_images", "image_registration/fft_tools/correlate2d.py: correlate2d", "image_registration/fft_tools/upsample.py: dftups"]}
