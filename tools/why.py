"""Longer versions of the field why_tests_cant, used by props.py."""
WHY = {
"C03": "Monotonicity must hold between every two entries for every pair of arrays of any length; a test compares the entries of a few sampled pairs.",
"C04": "Exactness depends on every pattern of ties between spectrum and query and on every order of an unsorted spectrum; tests use random floats, among which ties have probability zero.",
"C05": "The outcome depends on the pattern of ties; there are exponentially many patterns for each length, and the exceptional one (all values equal) is not in any test.",
"C06": "The claim is about the first and the last of arbitrarily many occurrences in arrays of every length, and about absence; examples fix one pattern.",
"C07": "Minimality is a comparison with a continuum of competing lines for a continuum of data; a test compares with a reference fit on a few samples.",
"C08": "Exactness is an identity over all non-uniform grids of any size and all affine functions; tests try a few grids and accept a tolerance that hides small errors.",
"C10": "The failure is at exactly one grid size (2), with the wrong value read through a negative index, so it raises nothing; no test uses that size.",
"C12": "Invariance relates two runs for a continuum of shifts, factors, centres and windows and for every grid size; a test relates two sampled runs.",
"C13": "Where the loop stops depends on the whole stream of random draws; a test sees the few streams its seeds give.",
"C14": "The running mean is an invariant of every prefix of every stream of samples; a test can only compare the final value of a few streams, up to rounding.",
"C15": "Soundness of the flag must hold for every stream on which the loop stops, also those on which convergence and the end of the budget coincide; seeds do not reach these.",
"C17": "Shape, order and failure must not depend on the random draws, of which a test sees one stream per seed.",
"C18": "n iterations can be executed in n! orders and by any number of threads; a run shows one of them.",
"C19": "The identity with the population variance must hold after every number of iterations of every stream of draws; tests check one final value up to a tolerance.",
"C20": "The flag and the count depend on the whole stream of draws, including streams on which the last 1000 variances agree exactly at the end of the budget.",
"C21": "The claim relates the results for all n! orders and for a continuum of shifts and scales under the same draws; tests do not fix the draws of the compiled code.",
"C22": "It must hold for every stream of draws: one draw for which a level falls outside the window would change the value, and a test sees few draws.",
"C24": "The outlier detector may return any of 2^n label vectors; tests see those which its heuristics produce on a few spectra.",
"C25": "Each iteration depends on what an arbitrary detector said on the previous block; the invariant is over all such histories.",
"C26": "The limits must hold against every sequence of detector answers, including those that mark everything; tests only run the real detector on a few spectra.",
"C27": "An off-by-one would have to be excluded for every iteration of every history, and repeated values at the cut make a search by value ambiguous, which random spectra never show.",
"C28": "The identity must hold at every iteration for every detector and every position of the block within the spectrum.",
"C29": "The claim is about every report, whatever the number of iterations, and about every index including negative and out-of-range ones.",
"C30": "The layout is a function of four lists of parameters of any length and of the number of iterations; examples fix one combination.",
"C31": "Whether a column is found depends on how each number is formatted and on every other column name it could be confused with.",
"C32": "The choice is an argmin over tables of arbitrary real scores, with ties and missing columns; tests see the tables of a few spectra.",
"C34": "The claim covers every permutation of the input, with repeated values, for arrays of every length.",
"C35": "Arrays have infinitely many shapes (any number of dimensions, lengths 0 and 1 anywhere); tests try two or three.",
"C36": "An identity for value arrays of every length, including the empty one and single values, which tests leave out.",
"C37": "Aliasing shows only in particular histories of reads, constructions and in-place writes; the claim is about all histories of any length.",
"C38": "A stale cache shows only if a write comes between two reads; the claim is about all interleavings of reads and writes.",
"C39": "The flag is process-wide state read through inheritance; the claim is about every sequence of constructions of every class.",
"C40": "Negative, reversed and out-of-range bounds give unboundedly many cases for spectra of every length.",
"C41": "The cut is a comparison of a continuum of eigenvalues with irrational endpoints for every N and T, including values exactly on the endpoints.",
"C42": "The claim is about every matrix, vector and tolerance; no test calls the function, and its failure (it filters the entries of the input) raises nothing.",
"C43": "The trimmed list depends on thresholds computed from an arbitrary list of eigenvalues; tests see the positive spectra of random data, where the branches agree.",
"C44": "The order of the endpoints depends on the largest eigenvalue for a continuum of spectra and on every N and T.",
"C45": "The identity of spectra is over all real matrices of all shapes N > T; tests compare one random 1000 x 250 matrix up to a tolerance.",
"C46": "Bounds on all entries amount to the Cauchy-Schwarz inequality over all data matrices; a test samples a few.",
"C47": "Independence of the history must hold for every prior random state and every sequence of earlier calls; a test tries one history.",
"C48": "The claim compares all random states of the process; a test cannot enumerate them, and one of the kinds reseeds from the operating system.",
"C49": "Symmetry, size and kind must hold for every outcome of the draws and every string given as kind.",
"C50": "The claim is about expectations for every size; a test can only average samples of a few sizes, and a factor near 1 disappears in the noise.",
"C51": "Monotonicity and range must hold for every real input, including values outside the support and at its edges; tests use typical spectra.",
"C52": "Monotonicity and range must hold for every spectrum, including repeated and extreme values; tests use typical spectra.",
"C53": "Dispatch ranges over every kind, every string and every combination of optional arguments; a test tries a few valid ones.",
"C54": "Fitted smoothers may be any function, also non-monotone ones; tests see the well-behaved fits of a few spectra.",
"C55": "The two results must agree for every smoother, including non-monotone ones whose values are reordered; tests use fits that happen to be increasing.",
"C56": "The trend is the output of an arbitrary decomposition; the identity must hold whatever it returns.",
"C57": "Orthogonality is an identity over all series of all lengths; tests accept a tolerance on a few.",
"C58": "The claim is about every matrix of signals, square or not; no test calls the function, and the error shows only if the numbers of rows and columns differ.",
"C59": "The result contains uninitialised memory in some cases, which may hold the expected value in any one run; no test calls the class.",
"C60": "At most once is a statement about every sequence of calls with every argument on every object.",
"C61": "Rows are kept by comparing a continuum of values with a threshold, in any parallel order; a test tries a few matrices.",
"C62": "Symmetry, zero diagonal and sign are identities over all lists of curves of all lengths; tests sample a few.",
"C64": "Which lists are accepted depends on the lengths of all the curves, labels and base, for any number of curves.",
"C65": "The length must be right for every number of points and every range, given or not, in each ensemble.",
"C66": "Total mass and mean are improper integrals; numerical quadrature over a finite range with a tolerance does not settle them.",
"C67": "An identity between a function and an integral for every real s; tests compare a few points up to a quadrature tolerance.",
"C68": "An identity of functions on the half line at the two ends of a continuum of parameters.",
"C69": "Each side is an integral transform of the other for every L > 0; quadrature at a few L cannot tell a wrong constant from an error of the quadrature.",
"C70": "An inverse on a continuum, with a domain bounded by the parameters: outside it the result is NaN, which sampled points do not delimit.",
"C71": "Exactness on polynomials is an identity over all grids of all sizes, including those too short for the formula.",
"C72": "An invariant of every sequence of updates; in floating point a test cannot separate it from rounding.",
"C73": "A bijection of index sets for shapes of every size; a test compares a few arrays.",
"C74": "The effect depends on the state of the file system: existing, missing or regular files at every level of every path.",
"C75": "The claim compares the fit with all polynomials of its degree, for every spectrum; tests compare with a reference fit on a few.",
"C76": "The score is a function of all gaps; zero and uniqueness of the minimum are statements about a continuum of arrays.",
"C77": "The rows are chosen through a random permutation; the claim must hold for all n! permutations and all percentages.",
"C78": "The methods are given as strings: the claim is about all strings; tests try the valid ones.",
"C79": "Names, degrees, smoothing factors and numbers of levels combine to unboundedly many calls; tests try a few names.",
"C80": "Entries are correlations of arbitrary curves for any number and length of curves, including constant ones, where the value is NaN.",
"C81": "Total mass and mean are improper integrals with tabulated constants; quadrature with a tolerance accepts slightly wrong constants.",
"C82": "A claim about a maximum over a continuum of parameters for every sample; a test compares a few samples with another optimiser.",
"C83": "The optimiser is numerical code which may return any point of its domain; the claim is about all of them.",
"C84": "The comparison depends on ties among the data and on their order; random samples have neither.",
"C85": "Monotonicity and limits are statements about all real arguments and parameters.",
"C86": "The first occurrence is in the order of all indices of arrays of every shape; examples fix one shape.",
"C87": "Broadcasting makes a row equal to its transpose in shape-dependent ways; the claim is about matrices of all shapes, not only square ones.",
"C93": "An identity over all real matrices of all shapes, through two different code paths; a test checks a few matrices up to a tolerance.",
"C96": "Optimality is a comparison with all lines, and the statistics are identities, for arrays of every length.",
"C97": "An identity over a continuum of spacings and parameters; no test calls the function, and with the wrong sign it still returns finite numbers.",
"C98": "Expectations over continuous distributions for all sizes, and exceptions for all argument combinations; samples only estimate them.",
"C99": "Counts depend on which values fall exactly on edges of bins, for all arrays and numbers of bins; random values never do.",
"C101": "The residuals are determined by the ranks of the whole spectrum, for spectra of every length.",
"C102": "The grid of panels depends on the number of iterations and the width in unboundedly many combinations; tests try one.",
"C104": "The outcome depends on what the optimiser returns or raises, and on every spectrum and option.",
"C111": "Ranges over every string given as kind and every array; tests try the valid kinds.",
"C123": "Relates two runs for every data set and for a continuum of factors and shifts, all signs and all permutations.",
"C127": "Quantifies over all shapes and all permutations of the data and all smoothing methods; tests pass sorted vectors.",
"C128": "Quantifies over all reports: any number of iterations and any counts in them; a test reads one log.",
"C130": "An identity for all pairs of series; the wrong result is still a number between -1 and 1 on many samples.",
"C132": "Rounding errors accumulate over up to 10^9 iterations, for every stream of draws; no test runs that long or knows the exact value.",
"C135": "Quantifies over all states of pyplot's global registry of figures and axes; a test starts from one.",
}
