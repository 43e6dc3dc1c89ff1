{"id": "C01", "title": "Token stream is always closed by one EOF", "statement": "For every include-free configuration text on which lexing finishes, the token list ends in an EOF token and contains no other EOF token; every other token carries non-empty text.", "quantifier": "every configuration text (any bytes, any length), every set of registered block types", "why_tests_cant": "Tests lex four fixed scripts; the claim is about every byte string.", "anchors": ["src/Configuration/Script/Lexer.cpp: Lex, nextc, pushbuffer, gettkn"]}
{"id": "C02", "title": "Loading a configuration text always terminates", "statement": "Reading a configuration text finishes after finitely many steps, whatever the text is.", "quantifier": "every configuration text", "why_tests_cant": "Non-termination on some text can only be excluded by an argument over all texts; a test that hangs is never in the suite.", "anchors": ["src/Configuration/Script/Lexer.cpp: nextc, Lex"]}
{"id": "C03", "title": "Comments are invisible", "statement": "The text between a '#' (outside a quoted string) and the end of its line, or the end of the file, never influences the tokens, hence never the configuration.", "quantifier": "every comment text, at every position outside strings, in every configuration text", "why_tests_cant": "Comment contents range over all strings and include the boundary where the comment is the last thing in the file.", "anchors": ["src/Configuration/Script/Lexer.cpp: nextc"]}
{"id": "C04", "title": "Layout independence", "statement": "The token types and values depend only on the sequence of words, punctuation and strings, not on how many blanks, tabs or newlines separate them.", "quantifier": "every configuration text and every non-empty replacement of a whitespace run outside strings", "why_tests_cant": "Infinitely many layouts of each script.", "anchors": ["src/Configuration/Script/Lexer.cpp: nextc, Lex"]}
{"id": "C05", "title": "Token kinds are decided by punctuation and context only", "statement": "A word is a value exactly when it follows '=' or another value, a block name exactly when it follows a block type, a block type exactly when it is registered and in neither position, and a setting name otherwise.", "quantifier": "every word, every previous token, every set of registered block types", "why_tests_cant": "Decision table over an infinite set of words and contexts.", "anchors": ["src/Configuration/Script/Lexer.cpp: gettkn, pushbuffer", "src/Configuration/Configuration.cpp: IsBlockType"]}
{"id": "C06", "title": "Configuration texts round-trip", "statement": "Writing any tree of blocks, settings and values as text with the documented syntax and loading it yields exactly that tree (settings with their values in order, blocks with type, name and secondary type), with the error flag clear.", "quantifier": "every configuration tree of any depth and width, any names and values free of special characters", "why_tests_cant": "Unbounded trees; tests use four scripts.", "anchors": ["src/Configuration/Script/Lexer.cpp: Lex", "src/Configuration/Script/Interpreter.cpp: Interpret", "src/Configuration/Script/ConfigurationScript.cpp: FromString"]}
{"id": "C07", "title": "The interpreter accepts exactly the grammar", "statement": "Loading a token stream reports no error if and only if the stream is a sequence of statements `name = value+ ;`, `type name [(name)] {` and `}` with braces balanced.", "quantifier": "every token stream ending in EOF", "why_tests_cant": "All streams of any length, including every malformed one.", "anchors": ["src/Configuration/Script/Interpreter.cpp: Interpret, expect, advance, tokent_n"]}
{"id": "C08", "title": "Syntax errors are always reported, never undefined behaviour", "statement": "For every configuration text the interpreter either returns a tree (with the error flag set if a statement was malformed) or throws; it never reads outside the token stream.", "quantifier": "every token stream ending in EOF", "why_tests_cant": "An out-of-bounds read need not crash a test run; the offending texts (e.g. a file whose last statement lacks ';') must be characterised, not sampled.", "anchors": ["src/Configuration/Script/Interpreter.cpp: advanceTo, advance, Interpret"]}
{"id": "C09", "title": "Re-definition overrides, re-opening extends", "statement": "When a setting is defined several times in a block the last definition's values win; when a block with the same type and name is opened several times all its contents end up in one block. No block ever holds two settings of one name or two sub-blocks of one type and name.", "quantifier": "every sequence of definitions and block openings, at any nesting depth", "why_tests_cant": "Histories of arbitrary length.", "anchors": ["src/Configuration/ConfigBlock.cpp: AddSetting, AddSubBlock, GetConfigBlock", "src/Configuration/Script/Interpreter.cpp: Interpret"]}
{"id": "C10", "title": "Block-type registration is a bijection", "statement": "Registering block types hands out pairwise different ids, looking a registered name up returns its id, registering a name twice is rejected and changes nothing, and no user type gets the id of the root block.", "quantifier": "every sequence of registrations and lookups", "why_tests_cant": "Arbitrary histories.", "anchors": ["src/Configuration/Configuration.cpp: Configuration, RegisterBlockType, StringToBlockType, IsBlockType"]}
{"id": "C11", "title": "Looking up an unknown block type is distinguishable", "statement": "StringToBlockType on a name that was never registered does not return the id of an existing type.", "quantifier": "every registration history and every unregistered name", "why_tests_cant": "All names.", "anchors": ["src/Configuration/Configuration.cpp: StringToBlockType"]}
{"id": "C12", "title": "Untouched settings are exactly those never read", "statement": "After any history of definitions and reads of a block, a setting is listed as untouched if and only if the program never asked for it by name.", "quantifier": "every interleaving of definitions, re-definitions and reads", "why_tests_cant": "Depends on the complete history; tests never redefine then query.", "anchors": ["src/Configuration/ConfigBlock.cpp: AddSetting, GetSetting, GetUntouchedSettings, HasUntouchedSettings, Merge"]}
{"id": "C13", "title": "Merge without new names only overwrites", "statement": "Merging with allowNew = false never adds or removes a setting or block, gives every setting that also exists in the source the source's values, and reports exactly the unknown names (null when there are none).", "quantifier": "every pair of configuration trees", "why_tests_cant": "All pairs of trees of any depth.", "anchors": ["src/Configuration/ConfigBlock.cpp: Merge, MergeSetting", "src/Configuration/Configuration.cpp: Merge"]}
{"id": "C14", "title": "Merge with new names is a right-biased union", "statement": "After merging with allowNew = true, every setting path defined in the source has the source's values, every other path keeps its old values, and nothing else is defined; null is returned.", "quantifier": "every pair of configuration trees", "why_tests_cant": "All pairs of trees; also idempotence under repeated merging.", "anchors": ["src/Configuration/ConfigBlock.cpp: Merge, MergeSetting, AddSetting, AddSubBlock"]}
{"id": "C15", "title": "Merged configurations can both be destroyed", "statement": "After merging one configuration into another each setting object is owned by exactly one of them, so that destroying both frees every object once.", "quantifier": "every pair of trees, either value of allowNew", "why_tests_cant": "Double frees are silent in most test runs and depend on tree shape.", "anchors": ["src/Configuration/ConfigBlock.cpp: Merge, ~ConfigBlock, AddSetting"]}
{"id": "C16", "title": "A copied configuration is self-contained", "statement": "Copying a configuration block yields a tree with equal names, types, effective secondary types and values, in which the parent of every sub-block is the copied block that contains it.", "quantifier": "every configuration tree", "why_tests_cant": "All trees; parent links are never checked in tests.", "anchors": ["src/Configuration/ConfigBlock.cpp: ConfigBlock(const ConfigBlock*)", "src/Configuration/Configuration.cpp: Configuration(const Configuration&)"]}
{"id": "C17", "title": "Boolean settings: check and conversion agree", "statement": "IsBool answers true exactly for the values GetBool converts without throwing, and GetBool yields true on exactly the affirmative ones.", "quantifier": "every setting value", "why_tests_cant": "All strings.", "anchors": ["src/Configuration/Script/SettingScript.cpp: IsBool, GetBool", "src/Configuration/Setting.cpp: StringToBool"]}
{"id": "C18", "title": "Integer settings: check and conversion agree", "statement": "If IsInteger32/64 or IsUnsignedInteger32/64 accepts a value, the corresponding getter returns precisely the number written there; every decimal number in range is accepted.", "quantifier": "every setting value, every integer", "why_tests_cant": "Boundaries at 2^31, 2^32, 2^63, 2^64 and all strings.", "anchors": ["src/Configuration/Script/SettingScript.cpp: IsInteger32, IsUnsignedInteger32, IsInteger64, IsUnsignedInteger64, GetInteger32, GetUnsignedInteger32, GetInteger64, GetUnsignedInteger64"]}
{"id": "C19", "title": "Scalar settings: check is exact", "statement": "IsScalar and IsNumericVector return true exactly when each value is entirely a number, and never throw for an existing index.", "quantifier": "every setting value list", "why_tests_cant": "All strings, including overflow and trailing garbage.", "anchors": ["src/Configuration/Script/SettingScript.cpp: IsScalar, IsNumericVector"]}
{"id": "C20", "title": "File-backed settings expose their values unchanged", "statement": "For a setting backed by an SFile, the numeric vector and an overwrite from another setting contain exactly the stored values, in order.", "quantifier": "every vector of values of every element type", "why_tests_cant": "All lengths; wrong lengths show only for particular getters.", "anchors": ["src/Configuration/SFile/SettingSFile.cpp: GetNumericVector, OverwriteValues, Copy"]}
{"id": "C21", "title": "File type is decided by the extension", "statement": "The file type chosen for a file name depends only on the text after its last dot, and each documented extension selects its documented format.", "quantifier": "every file name", "why_tests_cant": "All names.", "anchors": ["src/SFile/SFile.cpp: GetFileType, TypeOfFile"]}
{"id": "C22", "title": "SDT matrices round-trip", "statement": "A matrix written to an SDT file is read back with the same dimensions and entries.", "quantifier": "every matrix of every size, every variable name without whitespace, every set of other variables in the file", "why_tests_cant": "All sizes (including zero rows) and files holding any number of variables.", "anchors": ["src/SFile/SFile_SDT.cpp: WriteArray, GetDoubles", "src/SFile/SFile_SDT.load.cpp: Load, LoadMatrix"]}
{"id": "C23", "title": "SDT strings round-trip", "statement": "A string written to an SDT file is read back unchanged.", "quantifier": "every byte string and every set of other variables in the file", "why_tests_cant": "All strings of all lengths.", "anchors": ["src/SFile/SFile_SDT.cpp: WriteString, GetString", "src/SFile/SFile_SDT.load.cpp: Load, LoadString"]}
{"id": "C24", "title": "SDT variables can be read any number of times", "statement": "Reading a variable never changes what later reads of any variable return.", "quantifier": "every history of reads", "why_tests_cant": "Use-after-free depends on read histories; the tests read each variable once.", "anchors": ["src/SFile/SFile_SDT.cpp: GetDoubles, GetDoubles1D", "src/SFile/SFile.cpp: __Get2DAs, __GetSingle"]}
{"id": "C25", "title": "Multi-dimensional arrays are row-major views", "statement": "The nested view of an n-dimensional array gives at index (i1,...,in) the element at the row-major linear position, for every in-bounds index, without touching memory outside the array.", "quantifier": "every number of dimensions and extents, every index", "why_tests_cant": "All ranks and extents including rank 1.", "anchors": ["src/SFile/SFile.cpp: GetMultiArray"]}
{"id": "C26", "title": "Scalar reads accept exactly 1x1 variables", "statement": "Reading a scalar succeeds exactly when the variable is 1x1 and returns its single element; otherwise an error is raised.", "quantifier": "every stored variable", "why_tests_cant": "All sizes.", "anchors": ["src/SFile/SFile.cpp: __GetSingle, GetScalar"]}
{"id": "C27", "title": "Progress is reported a fixed number of times", "statement": "When a loop of n >= 1 iterations reports after each iteration, exactly min(n, nprint) progress lines appear, evenly spaced, and the last one appears exactly at iteration n with 100%.", "quantifier": "every n and nprint >= 1", "why_tests_cant": "All pairs (n, nprint), all remainders.", "anchors": ["src/General/ProgressTracker.cpp: ProgressTracker, UpdateNext, PrintProgress"]}
{"id": "C28", "title": "Concurrent progress reporting prints each line once", "statement": "When several threads report progress concurrently each progress line is printed at most once, whatever the schedule.", "quantifier": "every number of threads and every interleaving", "why_tests_cant": "Schedules.", "anchors": ["src/General/ProgressTracker.cpp: PrintProgress"]}
{"id": "C29", "title": "Elapsed time decomposes exactly", "statement": "The days, hours, minutes, seconds and milliseconds reported for an elapsed time add up to that time, each below its unit's bound.", "quantifier": "every elapsed time", "why_tests_cant": "Long durations (over a day) are never waited for in tests.", "anchors": ["src/General/Timer.cpp: GetTimeStruct, ToString"]}
{"id": "C30", "title": "Stopwatch accumulates running time only", "statement": "After any sequence of start, stop, continue and reset calls, the reported time is the total time the stopwatch was running since the last reset.", "quantifier": "every call sequence with every time stamp sequence", "why_tests_cant": "Histories.", "anchors": ["src/General/Timer.cpp: Reset, Stop, Continue, GetMilliseconds"]}
{"id": "C31", "title": "Error messages are never truncated", "statement": "An exception's text equals the formatted message for any message length.", "quantifier": "every message", "why_tests_cant": "Boundary at the internal buffer size.", "anchors": ["include/softlib/SOFTLibException.h: ConstructErrorMessage"]}
{"id": "C32", "title": "Vector arithmetic obeys vector-space laws", "statement": "Element access after +, -, scalar *, scalar /, unary -, dot, cross and norm is the textbook value, for any length, and operators do not modify their operands.", "quantifier": "every vector length, all entries", "why_tests_cant": "All lengths and values; aliasing of operands.", "anchors": ["include/softlib/General/Vector.tcc"]}
{"id": "C33", "title": "Matrix arithmetic obeys matrix algebra", "statement": "Matrix sums, differences, scalar multiples, matrix-vector and matrix-matrix products equal their textbook definitions and do not modify operands.", "quantifier": "every shape, all entries", "why_tests_cant": "All shapes.", "anchors": ["include/softlib/General/Matrix.tcc"]}
{"id": "C34", "title": "Integrator remembers every accepted step in order", "statement": "After any number of steps, the k-th stored time, solution and derivative are those of the k-th accepted step, regardless of how often storage grew.", "quantifier": "every number of steps (over all storage growths)", "why_tests_cant": "Unbounded histories crossing every allocation boundary.", "anchors": ["include/softlib/Integrator/Integrator.tcc: InitialValue, StoreSolution, TimeAt, SolutionAt, DerivativeAt"]}
{"id": "C35", "title": "Dormand-Prince coefficients are consistent", "statement": "The method's coefficients satisfy the row-sum conditions and all order conditions up to order five, and the embedded method those up to order four.", "quantifier": "the complete coefficient table; implied: exact integration of polynomial right-hand sides up to degree four", "why_tests_cant": "Numerical tests cannot distinguish a slightly wrong coefficient from truncation error.", "anchors": ["include/softlib/RKDP45.h", "include/softlib/Integrator/RKDP45.tcc"]}
{"id": "C36", "title": "Step-size control is safe", "statement": "A step is accepted exactly when its error estimate is at most one; the new step lies between 0.2 and 10 times the old one, never grows immediately after a rejection, and a rejected step always shrinks.", "quantifier": "every error estimate (including NaN), every step, every history", "why_tests_cant": "All error values and histories.", "anchors": ["include/softlib/Integrator/RungeKutta.tcc: UpdateTimestep, Step"]}
{"id": "C37", "title": "Integration moves forward in time", "statement": "Every accepted step strictly increases the time when the step is positive and the loop of rejections always ends (acceptance or an underflow error).", "quantifier": "every right-hand side and tolerance", "why_tests_cant": "All right-hand sides.", "anchors": ["include/softlib/Integrator/RungeKutta.tcc: Step, StoreSolution"]}
{"id": "C38", "title": "Dense output interpolates the stored solution", "statement": "Dense output at a stored time returns the stored solution, has the stored derivatives at both ends of each step, and requests outside the integrated interval are rejected.", "quantifier": "every step, every stored trajectory, every requested time", "why_tests_cant": "All trajectories.", "anchors": ["include/softlib/Integrator/RKDP45.tcc: PrepareDense, OutputDense"]}
{"id": "C39", "title": "Uniform output times cover the interval", "statement": "Requesting nt output points gives nt strictly increasing times starting at the first and ending exactly at the last requested time; nt = 0 is rejected.", "quantifier": "every nt, every interval", "why_tests_cant": "All nt.", "anchors": ["include/softlib/Integrator/Integrator.tcc: OutputDense"]}
{"id": "C40", "title": "Colour maps clamp and interpolate", "statement": "Evaluating a colour map returns the first colour at or below its minimum, the last at or above its maximum, the k-th colour at the k-th node and a colour between neighbouring nodes otherwise.", "quantifier": "every colour table, every value, every range vmin < vmax", "why_tests_cant": "All values and tables.", "anchors": ["include/softlib/ImageGenerator/ImageColormap.h: Eval"]}
{"id": "C41", "title": "PPM images contain each pixel once", "statement": "A written PPM file is well-formed: its header dimensions match the number of pixels written and the pixel at a given column and row is the colour of the corresponding image element.", "quantifier": "every image size and content", "why_tests_cant": "All sizes.", "anchors": ["src/ImageGenerator/ImageGeneratorPPM.cpp: SaveImage"]}
{"id": "C42", "title": "Peaked integration terminates with a trapezoidal sum", "statement": "For a positive peak value, positive step and non-negative cutoff, evaluation ends and the result is the step times the sum of the function over consecutive sample points inside the bounds, with the outermost pair halved.", "quantifier": "every integrand and every parameter choice", "why_tests_cant": "All integrands; termination.", "anchors": ["src/Integration/PeakedIntegration.cpp: Evaluate"]}
{"id": "C43", "title": "Golden-section search brackets the maximum", "statement": "For a function that rises and then falls on [0, 2*pi] the returned point is within the final bracket's width of the maximiser; the bracket shrinks by the golden ratio at each step and the result always lies in [0, 2*pi].", "quantifier": "every unimodal function, every tolerance", "why_tests_cant": "All functions.", "anchors": ["src/Integration/PeakedIntegration.cpp: FindMaximum"]}
{"id": "C44", "title": "Domain crossing test is exact", "statement": "CrossesDomain reports true exactly when the straight path between two points meets one of the domain's wall segments in the poloidal plane.", "quantifier": "every polygon with any number of vertices, every pair of points", "why_tests_cant": "All polygons and paths including parallel and touching ones.", "anchors": ["src/MagneticField/MagneticField2D.cpp: CrossesDomain"]}
{"id": "C45", "title": "Domain bounds enclose the domain", "statement": "GetDomainBounds returns the smallest rectangle enclosing all vertices of the current domain and the magnetic axis, after any history of domain changes.", "quantifier": "every history of SetDomain and GetDomainBounds calls", "why_tests_cant": "Caching makes results history dependent.", "anchors": ["src/MagneticField/MagneticField2D.cpp: GetDomainBounds, SetDomain"]}
{"id": "C46", "title": "Maximum radius is the outermost midplane crossing", "statement": "The maximum radius of a domain is the largest radius at which the wall crosses the height of the magnetic axis, computed without touching memory outside the wall arrays.", "quantifier": "every polygon and axis height", "why_tests_cant": "Out-of-bounds accesses depend on polygon shape.", "anchors": ["src/MagneticField/MagneticField2D.cpp: FindMaxRadius, FindMaxMin, SetDomain"]}
{"id": "C47", "title": "3D wall intersection never misses", "statement": "IntersectsDomain3D reports true whenever the line segment between two points meets the toroidally revolved wall, through both overloads.", "quantifier": "every wall, every segment", "why_tests_cant": "All geometries, including horizontal tiles.", "anchors": ["src/MagneticField/MagneticField2D.cpp: IntersectsDomain3D, __IntersectsDomain3D"]}
{"id": "C48", "title": "Analytical field is a magnetic field", "statement": "The field vector returned by Eval has zero divergence, its reported Jacobian is the true Jacobian, its reported curl is the true curl, and its reported strength is its norm.", "quantifier": "every point off the axis, every parameter set and q profile", "why_tests_cant": "Identities over all of space.", "anchors": ["src/MagneticField/MagneticFieldAnalytical2D.cpp: Eval, EvalDerivatives"]}
{"id": "C49", "title": "Analytical gradient of field strength is correct", "statement": "The gradient of |B| returned by EvalDerivatives is the gradient of the returned |B|.", "quantifier": "every point off the axis, every q profile", "why_tests_cant": "Identities over all of space.", "anchors": ["src/MagneticField/MagneticFieldAnalytical2D.cpp: EvalDerivatives"]}
{"id": "C50", "title": "Flux surfaces contain the field", "statement": "The poloidal flux derivatives reported are the true derivatives of the reported flux and the field is tangent to surfaces of constant flux.", "quantifier": "every point off the axis, every q profile", "why_tests_cant": "Identities over all of space.", "anchors": ["src/MagneticField/MagneticFieldAnalytical2D.cpp: EvalFlux, EvalFluxDerivatives, Eval"]}
{"id": "C51", "title": "Safety-factor derivative matches the profile", "statement": "The reported r*dq/dr is r times the derivative of the reported q(r) for each profile type.", "quantifier": "every radius and profile parameter", "why_tests_cant": "Identities over all reals.", "anchors": ["src/MagneticField/MagneticFieldAnalytical2D.q.cpp"]}
{"id": "C52", "title": "Numeric field is axisymmetric and keeps its strength", "statement": "Rotating the evaluation point around the torus axis rotates the field vector; its norm equals the norm of the tabulated cylindrical components; the reported |B|, its gradient and the curl agree with the reported Jacobian.", "quantifier": "every point and tabulated field", "why_tests_cant": "All points, including those outside the grid.", "anchors": ["src/MagneticField/MagneticFieldNumeric2D.cpp: Eval, EvalDerivatives, __EvalJacobian"]}
{"id": "C53", "title": "Numeric fields round-trip through files", "statement": "Saving a numeric magnetic field and loading it gives the same grid, components, wall, separatrix and axis.", "quantifier": "every grid size (square grids included), with or without flux, wall, separatrix", "why_tests_cant": "All sizes and optional parts.", "anchors": ["src/MagneticField/MagneticFieldNumeric2D.cpp: Save, Load, Transpose"]}
{"id": "C54", "title": "Cloning a numeric field preserves behaviour", "statement": "A clone answers every query like the original.", "quantifier": "every field, with wall only, separatrix only or both", "why_tests_cant": "All configurations of optional parts.", "anchors": ["src/MagneticField/MagneticFieldNumeric2D.cpp: Clone, Init"]}
{"id": "C55", "title": "Radial grid search finds the enclosing interval", "statement": "The radial search used by numeric distributions returns the interval containing the requested radius for every strictly increasing grid, -1 below and the last index above.", "quantifier": "every grid length and radius", "why_tests_cant": "All lengths.", "anchors": ["src/DistributionFunction/NumericDistributionFunction.cpp: __FindNearestR"]}
{"id": "C56", "title": "Numeric distribution interpolates linearly in radius", "statement": "Evaluating a numeric distribution at a grid radius gives that radius's momentum distribution; between grid radii it gives the linear interpolation; outside it extrapolates linearly when allowed and throws otherwise.", "quantifier": "every grid, every radius", "why_tests_cant": "All grids and histories of construction (initialise, insert in any order).", "anchors": ["src/DistributionFunction/NumericDistributionFunction.cpp: Eval, Initialize, InsertMomentumSpaceDistribution"]}
{"id": "C57", "title": "Insertion order does not matter", "statement": "Inserting momentum-space distributions at distinct radii in any order yields the same distribution function.", "quantifier": "every insertion order", "why_tests_cant": "All permutations of all lengths.", "anchors": ["src/DistributionFunction/NumericDistributionFunction.cpp: InsertMomentumSpaceDistribution"]}
{"id": "C58", "title": "Clones of distributions evaluate identically", "statement": "A minimal clone of a distribution function returns the same value as the original everywhere, including logarithmically interpolated ones.", "quantifier": "every distribution, every argument", "why_tests_cant": "All arguments and construction modes.", "anchors": ["src/DistributionFunction/NumericDistributionFunction.cpp: MinClone", "src/DistributionFunction/NumericMomentumSpaceDistributionFunction.cpp: MinClone", "src/DistributionFunction/RadialDistributionFunction.cpp: MinClone", "src/DistributionFunction/GOCODEDistributionFunction.cpp: MinClone"]}
{"id": "C59", "title": "Pitch flipping and range cut-off", "statement": "A momentum distribution with flipped pitch at (p, xi) equals the unflipped one at (p, -xi); outside the tabulated rectangle it is zero.", "quantifier": "every argument, every tabulated distribution", "why_tests_cant": "All arguments.", "anchors": ["src/DistributionFunction/NumericMomentumSpaceDistributionFunction.cpp: Eval, FlipPitchSign"]}
{"id": "C60", "title": "CODE distributions do not depend on evaluation history", "statement": "The value of a CODE distribution at (p, xi) does not depend on which evaluations or conversions happened before.", "quantifier": "every history of Eval and ToMomentumSpace calls", "why_tests_cant": "Histories.", "anchors": ["src/DistributionFunction/CODEDistributionFunction.cpp: Eval, ComputeLegendrePolynomials, ToMomentumSpace"]}
{"id": "C61", "title": "Legendre modes are the Legendre polynomials", "statement": "The computed Legendre values satisfy Bonnet's recursion from P0 = 1, P1 = x, equal one at x = 1, have parity (-1)^l, are bounded by one on [-1,1], and no entry outside the mode array is written.", "quantifier": "every number of modes and every xi", "why_tests_cant": "All mode counts including 0 and 1.", "anchors": ["src/DistributionFunction/CODEDistributionFunction.cpp: ComputeLegendrePolynomials"]}
{"id": "C62", "title": "Time index selection", "statement": "A time index t selects time step t, or the |t|-th from the end if negative; anything outside the stored range is rejected, for every reader of time-resolved distributions.", "quantifier": "every time index and every number of stored steps", "why_tests_cant": "Boundaries for all sizes.", "anchors": ["src/DistributionFunction/CODEDistributionFunction.cpp: Load", "src/DistributionFunction/GOCODEDistributionFunction.cpp: Load", "src/DistributionFunction/DREAMDistributionFunction.cpp: __Load"]}
{"id": "C63", "title": "Radial profiles are normalised cut-offs", "statement": "Each radial profile is zero outside its interval, non-negative, decreasing, at most one and equal to one at its inner edge (where so documented); invalid intervals are rejected.", "quantifier": "every radius and parameter", "why_tests_cant": "All reals.", "anchors": ["src/DistributionFunction/LinearRadialProfile.cpp", "src/DistributionFunction/PowerRadialProfile.cpp", "src/DistributionFunction/GaussianRadialProfile.cpp", "src/DistributionFunction/BesselRadialProfile.cpp", "src/DistributionFunction/RadialDistributionFunction.cpp: Eval"]}
{"id": "C64", "title": "Analytical momentum distributions are physical", "statement": "The avalanche, Connor-Hastie and exponential-pitch distributions are positive for admissible parameters, even in pitch and increasing towards |xi| = 1.", "quantifier": "every momentum, pitch and admissible parameter", "why_tests_cant": "All reals.", "anchors": ["src/DistributionFunction/AnalyticalAvalanche.cpp: Eval", "src/DistributionFunction/ConnorHastieDistribution.cpp: Eval", "src/DistributionFunction/ExponentialPitch.cpp: Eval"]}
{"id": "C65", "title": "Distribution files must have strictly increasing radii", "statement": "Loading a SOFT, DREAM or GO+CODE distribution succeeds only if the radial grid is strictly increasing, and the resulting grid is the file's grid shifted by the magnetic axis.", "quantifier": "every radial grid", "why_tests_cant": "All grids.", "anchors": ["src/DistributionFunction/SOFTDistributionFunction.cpp: __Load", "src/DistributionFunction/DREAMDistributionFunction.cpp: __Load", "src/DistributionFunction/GOCODEDistributionFunction.cpp: Load"]}
{"id": "C66", "title": "Progress time strings decompose exactly", "statement": "The days, hours, minutes, seconds and milliseconds computed by the progress tracker for a duration add up to the duration, and every part below the largest unit shown stays within its unit's bound.", "quantifier": "every duration, every largest unit", "why_tests_cant": "Long durations.", "anchors": ["src/General/ProgressTracker.cpp: TimeString"]}
{"id": "C67", "title": "Compound assignment and output arguments tolerate aliasing", "statement": "Compound assignments on vectors and the cross product with an output argument give the textbook value even when operands are the same object or the scalar is an element of the vector.", "quantifier": "every vector length, all entries, every aliasing of the arguments", "why_tests_cant": "Aliasing is rarely exercised.", "anchors": ["include/softlib/General/Vector.tcc"]}
{"id": "C68", "title": "Dense output satisfies the order-four conditions", "statement": "The interpolating polynomial used for dense output is, for every position within the step, a Runge-Kutta combination of the stages that satisfies all order conditions up to order four, so polynomial solutions up to degree three are reproduced exactly between the stored times.", "quantifier": "every step size, every position within the step, every right-hand side", "why_tests_cant": "A wrong digit in a coefficient is hidden by tolerances.", "anchors": ["include/softlib/Integrator/RKDP45.h", "include/softlib/Integrator/RKDP45.tcc: InnerStep, PrepareDense, OutputDense"]}
{"id": "C69", "title": "Integer multi-dimensional arrays in MAT files", "statement": "Writing a list, array or multi-dimensional array of integers to a MAT file succeeds and stores the values with their MATLAB class.", "quantifier": "every name and every array", "why_tests_cant": "All integer types and shapes.", "anchors": ["src/SFile/SFile_MAT.HDF5.cpp: WriteMultiInt32Array and related"]}
{"id": "C70", "title": "CODE interpolation objects fit their array", "statement": "Preparing a CODE distribution for interpolation writes no pointer outside the arrays allocated for the interpolation objects.", "quantifier": "every number of momenta and of Legendre modes", "why_tests_cant": "Depends on both sizes; typical files have few modes.", "anchors": ["src/DistributionFunction/CODEDistributionFunction.cpp: InitInterpolation"]}
{"id": "C71", "title": "Conversion of CODE distributions to tables", "statement": "The table made by converting a CODE distribution holds, for every pitch of the grid and every momentum node, the Legendre sum of the nodal values (cut off at zero if logarithmic), in the index order of the tabulated distribution, and agrees with evaluating the distribution.", "quantifier": "every number of modes, momenta and pitches", "why_tests_cant": "All sizes.", "anchors": ["src/DistributionFunction/CODEDistributionFunction.cpp: ToMomentumSpace"]}
{"id": "C72", "title": "Verification vectors detect every mismatch", "statement": "The verification of a distribution in the old SOFT format accepts a vector exactly if all its entries agree with the loaded data to the relative tolerance, rejects vectors of the wrong shape and reads only the loaded data.", "quantifier": "every verification vector, every data", "why_tests_cant": "All sizes and positions of the mismatch.", "anchors": ["src/DistributionFunction/deprSOFTDistributionFunction.cpp: Verify"]}
{"id": "C73", "title": "Loaded DREAM distributions can be destroyed", "statement": "The destructor of a DREAM distribution releases only pointers that were allocated, whatever the selected time step.", "quantifier": "every number of time steps, every selected step", "why_tests_cant": "Releasing an interior pointer is undefined and often silent.", "anchors": ["src/DistributionFunction/DREAMDistributionFunction.cpp: ~DREAMDistributionFunction, __Load"]}
{"id": "C74", "title": "Numeric data round-trips through HDF5 and MAT files", "statement": "A matrix, list or multi-dimensional array of numbers that is written under a free name to an HDF5 or MAT file is read back with the same extents and entries, also after any further writes to the file.", "quantifier": "every number type, every extent, every array, every later history of writes", "why_tests_cant": "quantifies over all arrays, all memory layouts of the rows and all histories", "anchors": ["src/SFile/SFile_HDF5.cpp: WriteNumArray, WriteNumList, WriteMultiNumArray, GetArray2D, SFile_HDF5_GetArray1D, GetMultiArray_linear", "src/SFile/SFile_MAT.HDF5.cpp: WriteArray, WriteMultiArray"]}
{"id": "C75", "title": "Strings round-trip through HDF5 and MAT files", "statement": "A string written to an HDF5 or MAT file is read back unchanged, also after any further writes to the file.", "quantifier": "every byte string and every later history of writes", "why_tests_cant": "quantifies over all byte strings, including those with zero or non-ASCII bytes", "anchors": ["src/SFile/SFile_HDF5.cpp: WriteString, GetString", "src/SFile/SFile_MAT.HDF5.cpp: WriteString, GetString"]}
{"id": "C76", "title": "Reading from HDF5 and MAT files is memory safe", "statement": "Reading an existing variable from any well-formed HDF5 or MAT file as a matrix, list, multi-dimensional array or string either returns its contents or throws; it never writes outside the memory provided.", "quantifier": "every file, including files written by other programs, and every variable in it", "why_tests_cant": "files made by other programs can contain variables of any rank; tests read files the library wrote itself", "anchors": ["src/SFile/SFile_HDF5.cpp: GetArray2D, SFile_HDF5_GetArray1D, GetMultiArray_linear", "src/SFile/SFile_MAT.HDF5.cpp: GetString"]}
{"id": "C77", "title": "Failures of HDF5 and MAT files are reported by the library's exception", "statement": "When an operation on an HDF5 or MAT file fails it throws SFileException.", "quantifier": "every file, every operation", "why_tests_cant": "quantifies over all operations and file states", "anchors": ["src/SFile/SFile_HDF5.cpp", "src/SFile/SFile_MAT.HDF5.cpp"]}
{"id": "C78", "title": "Attributes of different variables do not interfere", "statement": "Writing an attribute of a variable succeeds if that variable does not have the attribute yet, reading it gives the value written, whatever attributes of other variables or other variables are written.", "quantifier": "every format, all variable and attribute names, every history of writes", "why_tests_cant": "quantifies over all pairs of names", "anchors": ["src/SFile/SFile_HDF5.cpp: WriteAttribute_scalar, GetAttributeScalar", "src/SFile/SFile_MAT.HDF5.cpp: GetAttributeName", "src/SFile/SFile_SDT.cpp: GetAttributeName"]}
{"id": "C79", "title": "MAT files can be created at any time", "statement": "Creating a MAT file writes a 128-byte header consisting of 116 characters of text with the current date and the version and byte-order marks MATLAB requires.", "quantifier": "every calendar date and time of day", "why_tests_cant": "depends on the date on which it runs", "anchors": ["src/SFile/SFile_MAT.HDF5.cpp: CreateMAT"]}
{"id": "C80", "title": "Variables can be read as integers whatever their stored number type", "statement": "Reading a variable of an HDF5 or MAT file as an array, list or single 64-bit integer returns exactly the stored values, in order, whichever number type they were stored with, provided they are integers; values that are not representable and variables that are not numbers are rejected with an error.", "quantifier": "every file, every variable, every stored number type", "why_tests_cant": "quantifies over all values of five number types and all extents", "anchors": ["src/SFile/SFile.cpp: __Get2DAs, __Get1DAs, __Get2DAsType, __Get1DAsType, __GetScalarAsType", "src/SFile/SFile_HDF5.cpp: GetDataType"]}
{"id": "C81", "title": "Variables of HDF5 and MAT files are independent", "statement": "Writing a variable, attribute or structure, successfully or not, changes nothing that is stored under another name; the library reports a variable as existing exactly if it has been written.", "quantifier": "every file, every history of writes, every pair of names, both formats", "why_tests_cant": "quantifies over all histories and all names", "anchors": ["src/SFile/SFile_HDF5.cpp: HasVariable, Write*", "src/SFile/SFile_MAT.HDF5.cpp: Write*"]}
{"id": "C82", "title": "Tokens and errors carry the position in the text", "statement": "Every token produced from a configuration text carries the file it comes from and the line and column at which it stands, so that every error message of the interpreter points at the place of the error.", "quantifier": "every text, every nesting of included files, every token", "why_tests_cant": "quantifies over all texts and layouts", "anchors": ["src/Configuration/Script/Lexer.cpp: nextc, pushbuffer, gettkn, Lex, include_file", "src/Configuration/Script/Interpreter.cpp: error"]}
{"id": "C83", "title": "Syntax errors are reported where they are, once, and reading carries on", "statement": "Every malformed statement is reported exactly once, naming the first token that cannot continue the statement and the first token of the shortest way to complete it; reading carries on at the next token that can start a statement; the error flag is set exactly if something was reported; the messages name the stored position of the reported token; blocks left open are reported at the end of the text. The interpreter reads past the end of the tokens exactly if there are none or they end within a statement.", "quantifier": "every token stream ending in EOF, however malformed", "why_tests_cant": "quantifies over all token streams and all positions of errors", "anchors": ["src/Configuration/Script/Interpreter.cpp: Interpret, expect, advanceTo, currline, currcharpos, currfile", "src/Configuration/Script/ConfigurationScript.cpp: FromString"]}
{"id": "C84", "title": "Printed durations read back", "statement": "The text printed for a duration, with or without colours, reads back (numbers followed by d, h, m, s or ms) as the duration if it is below ten seconds or shown in milliseconds, and otherwise as the duration rounded down to seconds; numbers after the first have fixed width; colour only adds terminal codes; a duration of zero is written 0s.", "quantifier": "every non-negative duration, largest unit and colour setting", "why_tests_cant": "quantifies over all durations", "anchors": ["src/General/ProgressTracker.cpp: TimeString, FormattedTimeString, PrintProgressLines"]}
{"id": "C85", "title": "The estimate of the remaining time is exact for regular runs", "statement": "With each line the tracker announces the sum of the durations of the remaining blocks: exactly when all blocks take the same time, and from the second line on exactly when durations form an arithmetic progression; with the last line it announces zero; no value is used before it is set.", "quantifier": "every number of lines, every run, every sequence of durations", "why_tests_cant": "quantifies over all runs and durations", "anchors": ["src/General/ProgressTracker.cpp: EstimateRemainingTimeDeterministic, EstimateRemainingTimeAverage"]}
{"id": "C86", "title": "Loading does not depend on the source of the text or on earlier loads", "statement": "A text loaded from a file, from the standard input or from a string gives the same outcome, the same tree and the same errors; loads do not influence each other except that the error flag accumulates; a load that fails keeps the tree loaded before; all of the standard input is read, whatever its length, within the allocated buffer; a file can be loaded exactly if none has been loaded before by the object.", "quantifier": "every text, file system, object state and sequence of loads", "why_tests_cant": "quantifies over all texts, lengths and sequences of loads", "anchors": ["src/Configuration/Script/ConfigurationScript.cpp: FromFile, FromStdin, FromString", "src/Configuration/Script/Lexer.cpp: include_file"]}
{"id": "C87", "title": "Files keep what is written to them, in any order of use", "statement": "What is written to a file between opening it for writing and closing it is what a later reading finds; opening an existing file for update keeps its contents and adds to them; a file that cannot be opened is reported by an exception; other files are not touched; and an object can be closed, reused for another file and destroyed in any state.", "quantifier": "every file format, every content of the disk and permissions, every history of open, write, read, close and destroy on an object", "why_tests_cant": "the behaviour depends on the whole history of the object and of the disk (earlier files, failed openings, repeated closing); tests cover one write and one read with a fresh object", "anchors": ["src/SFile/SFile.cpp: SFile::Create", "src/SFile/SFile_SDT.cpp: Open, Close, HasVariable", "src/SFile/SFile_SDT.load.cpp: Load", "src/SFile/SFile_HDF5.cpp: SFile_HDF5, ~SFile_HDF5, Open, Close, HasVariable", "src/SFile/SFile_MAT.HDF5.cpp: Open, CreateMAT"]}
{"id": "C88", "title": "Numeric fields made from analytical ones agree with them", "statement": "Converting an analytical magnetic field to a numeric one gives a field with the same magnetic axis and domain whose value in every grid point, at every toroidal angle, is that of the analytical field, and whose flux there is that of the analytical field; the grid covers the square of the minor radius around the axis.", "quantifier": "every analytical field, every safety factor profile, every number of grid points, every grid point and toroidal angle", "why_tests_cant": "a test compares a few points of one field; the statement is about all grids, profiles and angles, and about memory that happens to be zero in a test", "anchors": ["src/MagneticField/MagneticFieldAnalytical2D.cpp: ToNumeric2D, ConstructDomain, Eval, EvalFlux", "src/MagneticField/MagneticFieldNumeric2D.cpp: MagneticFieldNumeric2D, Init, Eval, EvalFlux"]}
{"id": "C89", "title": "A LUKE equilibrium is loaded as it is in the file", "statement": "Loading an equilibrium in LUKE format gives a numeric magnetic field whose grid is the grid of the file shifted by the position of the magnetic axis, whose flux is the normalised flux of the file times its value on the last surface, whose components at every grid point are the bilinear interpolation of their own (flux, angle) table at the normalised flux and the poloidal angle of that point, whose separatrix is the last flux surface and whose domain is the given wall, or the separatrix if no wall is given; files with missing variables or tables of wrong dimensions are rejected.", "quantifier": "for all equilibrium files and wall files, with grids and tables of all sizes and values, and all grid points", "why_tests_cant": "The result depends on the sizes of three grids, on the position of every grid point relative to the flux and angle tables, on the branch of the arc tangent and on the position of the first point of the last surface relative to the axis; tests load one equilibrium at most (there is none in the test suite).", "anchors": ["src/MagneticField/MagneticFieldLUKE.cpp:95", "src/MagneticField/MagneticFieldLUKE.cpp:219", "src/MagneticField/MagneticFieldLUKE.cpp:297", "src/SFile/SFile.cpp:153", "src/MagneticField/MagneticField2D.cpp:210"]}
{"id": "C90", "title": "Accepted integration steps meet the tolerance", "statement": "The error estimate is the root mean square, over the components, of the local error divided by the tolerance atol + rtol*max(|old|,|new|). In every integration, whatever the equation, the initial value, the step control parameters and the number of steps, the first stored point is the initial value at time zero, every stored derivative is the right-hand side at the stored point, and every further point is the Dormand-Prince step from the point before with an estimate of at most one, so that every component error is within its tolerance; trial steps within the tolerance are accepted, and the accessors for the last point return the point stored last.", "quantifier": "every right-hand side, dimension, tolerance, initial value, parameter setting and number of steps", "why_tests_cant": "Tests integrate a few equations with known solutions and cannot see the estimate of every accepted step.", "anchors": ["include/softlib/Integrator/RungeKutta.tcc: EstimateError, Step, UpdateTimestep, InitialValue", "include/softlib/Integrator/RKDP45.tcc: InnerStep", "include/softlib/Integrator/Integrator.tcc: LastTime, LastSolution, LastDerivative, StepsTaken"]}
{"id": "C91", "title": "Integrations with known results are exact or follow the method", "statement": "Integrating an equation whose right-hand side is a polynomial in time of degree up to four gives the exact solution at every stored time, and dense output gives it at every requested time for degree up to three, for which no step is rejected. For a linear equation each step applies the stability polynomial of the method. Linear quantities conserved by the equation are conserved at all stored times and by dense output.", "quantifier": "every polynomial, linear operator, linear invariant, dimension, tolerance, number of steps and list of sorted output times", "why_tests_cant": "Tests compare a few integrations with a tolerance.", "anchors": ["include/softlib/Integrator/RKDP45.tcc: InnerStep, PrepareDense, OutputDense", "include/softlib/Integrator/RungeKutta.tcc: Step, StoreSolution, UpdateTimestep"]}
{"id": "C92", "title": "Distributions made from logarithms give their values back", "statement": "A distribution made or extended by InitializeLog or InsertMomentumSpaceDistributionLog has the given values at the points of its grids (zero for values that are not positive); the array of the caller is unchanged if a new array is requested and has the logarithms otherwise.", "quantifier": "every number of radii, momenta and pitches, every array of values, with and without a new array, every interpolation that reproduces its table", "why_tests_cant": "All grids, arrays and interpolations.", "anchors": ["src/DistributionFunction/NumericDistributionFunction.cpp: InitializeLog, InsertMomentumSpaceDistributionLog, Initialize, InsertMomentumSpaceDistribution", "src/DistributionFunction/NumericMomentumSpaceDistributionFunction.cpp: Initialize, Eval"]}
{"id": "C93", "title": "Smallest radius and vertical extent of a domain", "statement": "At the height of the magnetic axis FindMaxRadius/FindMinRadius give the largest and the smallest radius of the points of the domain contour, and FindMaxZ gives the smallest and the largest height of the contour at the given radius; an exception means that the contour does not reach the height or radius.", "quantifier": "every contour, every position of the axis, every radius", "why_tests_cant": "All contours.", "anchors": ["src/MagneticField/MagneticField2D.cpp: FindMaxRadius, FindMinRadius, FindMaxZ, FindMaxMin"]}
{"id": "C94", "title": "Remembered radii belong to the contour in use", "statement": "GetMaxRadius and GetMinRadius return the radii that a fresh computation for the contour in use (the domain, or the separatrix or wall of a numeric field) gives, after any sequence of calls of the public functions.", "quantifier": "every axis, contour and sequence of SetDomain, GetMaxRadius, GetMinRadius, FindMaxRadius, FindMinRadius, with and without contours as arguments", "why_tests_cant": "All sequences of calls.", "anchors": ["src/MagneticField/MagneticField2D.cpp: GetMaxRadius, GetMinRadius, FindMaxRadius, FindMinRadius, SetDomain", "src/MagneticField/MagneticFieldNumeric2D.cpp: FindMaxRadius, FindMinRadius", "include/softlib/MagneticField/MagneticField2D.h: maxradius, minradius"]}
{"id": "C95", "title": "Setting an initial value starts afresh", "statement": "After InitialValue on an integrator that has been used, any number of steps gives the points that a new integrator gives for the same equation, tolerance and initial value.", "quantifier": "every integrator state, equation, dimension, tolerance, parameters and number of steps, dense output on or off", "why_tests_cant": "All histories of use and numbers of steps.", "anchors": ["include/softlib/Integrator/RungeKutta.tcc: InitialValue, Step, UpdateTimestep", "include/softlib/Integrator/Integrator.tcc: StoreSolution"]}
{"id": "C96", "title": "Parameters of the step-size control", "statement": "For all parameters that can be set, the next step is between minscale and maxscale times the present one, the rejections of a step end at every time but zero, and alpha and beta stay related as initially.", "quantifier": "all values of safety factor, exponents, smallest and largest factor; all errors and histories", "why_tests_cant": "All real parameters and sequences of errors.", "anchors": ["include/softlib/Integrator/RungeKutta.tcc: UpdateTimestep, Step, SetExponentAlpha, SetExponentBeta, SetMaxScaleFactor, SetMinScaleFactor, SetSafetyFactor", "include/softlib/RungeKutta.h"]}
{"id": "C97", "title": "Dense output can be switched on and off", "statement": "Whatever the settings of ToggleDenseOutput were during the steps, dense output within the integrated interval gives the interpolating polynomials of the stored solution or an exception.", "quantifier": "every sequence of steps, restarts and settings, all requested times", "why_tests_cant": "All sequences.", "anchors": ["include/softlib/Integrator/RungeKutta.tcc: ToggleDenseOutput, StoreSolution", "include/softlib/Integrator/RKDP45.tcc: PrepareDense, OutputDense"]}
{"id": "C98", "title": "Numeric fields release what they own once", "statement": "However numeric magnetic fields are constructed from arrays, cloned, initialised again, used and destroyed, no array is released twice, no array is read after its release, and when all fields are destroyed nothing they acquired is still allocated.", "quantifier": "for all sequences of constructions, clones, re-initialisations, uses and destructions, in any order, with any combination of given and missing flux, wall and separatrix", "why_tests_cant": "Memory errors and leaks depend on the order of clone and destruction and on which optional arrays are present; a test runs a few orders, usually without a leak checker.", "anchors": ["src/MagneticField/MagneticFieldNumeric2D.cpp:43-166", "src/MagneticField/MagneticFieldNumeric2D.cpp:213-289"]}
{"id": "C99", "title": "3D wall intersection raises no false alarms", "statement": "When IntersectsDomain3D reports an intersection, the line segment between the two points meets a tile of the toroidally revolved wall.", "quantifier": "every wall, every segment, with and without outer wall", "why_tests_cant": "False alarms occur for particular slopes and for crossings beyond the ends of a tile; sampled segments rarely show them, and nothing else checks the answer.", "anchors": ["src/MagneticField/MagneticField2D.cpp:367-457"]}
{"id": "C100", "title": "Field files with arrays that do not fit the grid are rejected", "statement": "A numeric equilibrium file whose field components or wall do not have the shape required by the (R, Z) grid is rejected with the library's exception; nothing is read outside the arrays, and no value is used at the wrong grid point.", "quantifier": "every grid, every shape and content of the components and of the wall", "why_tests_cant": "There are unboundedly many wrong shapes; most of them yield a field without any message, and the undefined ones often happen to work.", "anchors": ["src/MagneticField/MagneticFieldNumeric2D.cpp:488-735", "src/SFile/SFile_HDF5.cpp:195-226"]}
{"id": "C101", "title": "Opening an SDT file of any contents is safe", "statement": "Opening any text as an SDT file either succeeds with the variables written in it or throws the library's exception; it never accesses memory outside the arrays and never throws another exception.", "quantifier": "every text, every way of reading numbers, every allocator", "why_tests_cant": "The dangerous files have sizes near 2^64 whose product wraps around; random or hand-picked files hardly ever contain them.", "anchors": ["src/SFile/SFile_SDT.load.cpp:17-86"]}
{"id": "C102", "title": "The values of a file setting are released exactly once", "statement": "A setting read from a file owns the list of values it is given: whatever is set, overwritten, copied, cleared or destroyed, in any order and whether or not exceptions are thrown, each list is released exactly once, none is lost, none is used after it was released, and no operation on one setting changes the values of another.", "quantifier": "every sequence of operations on any number of settings, every list of values, every text in overwriting settings", "why_tests_cant": "Double releases and lost lists depend on the order of operations over several objects and do not show in the results.", "anchors": ["src/Configuration/SFile/SettingSFile.cpp:15-34", "src/Configuration/SFile/SettingSFile.cpp:288-338", "include/softlib/Configuration/ConfigurationSFile.h:10-40"]}
{"id": "C103", "title": "Loading configuration scripts loses no objects", "statement": "Whatever scripts are loaded into a configuration, one after another, with or without errors: each token, block and setting that is made is afterwards held in the configuration's tree or has been released, and when the configuration is destroyed everything has been released.", "quantifier": "every sequence of token streams, well formed or not", "why_tests_cant": "Lost objects do not show in results, and which objects are lost depends on repetitions, errors and the order of loads.", "anchors": ["src/Configuration/Script/Interpreter.cpp:133-212", "src/Configuration/ConfigBlock.cpp:54-88", "src/Configuration/Script/ConfigurationScript.cpp:66-80", "src/Configuration/Configuration.cpp:25-35"]}
{"id": "C104", "title": "CODE and GO+CODE distributions release what they own once", "statement": "Whatever sequence of constructing, loading, initialising, cloning, evaluating, Destroy and destruction a program performs on CODE and GO+CODE distribution functions, no memory is released twice or used after it was released, and when all the objects are gone everything that they allocated has been released.", "quantifier": "every sequence of operations and all sizes of distributions", "why_tests_cant": "Double releases and reads of released memory depend on which objects share arrays and in which order they go; results are usually right all the same.", "anchors": ["src/DistributionFunction/CODEDistributionFunction.cpp:43-52", "src/DistributionFunction/CODEDistributionFunction.cpp:204-230", "src/DistributionFunction/CODEDistributionFunction.cpp:278-348", "src/DistributionFunction/GOCODEDistributionFunction.cpp:28-30", "src/DistributionFunction/GOCODEDistributionFunction.cpp:197-221"]}
{"id": "C105", "title": "Clones of CODE distributions can be evaluated in parallel", "statement": "If every thread of a program evaluates only CODE distributions (with at least two Legendre modes) that it cloned for itself, then whatever the scheduling of the threads each evaluation returns the value of the distribution at the point asked for, nothing undefined happens, and no thread has to wait for another.", "quantifier": "any number of threads, objects, evaluations and every interleaving of their memory accesses", "why_tests_cant": "The number of interleavings is unbounded and the wrong ones are rare; a value computed from half-updated tables looks like any other.", "anchors": ["src/DistributionFunction/CODEDistributionFunction.cpp:184-198", "src/DistributionFunction/CODEDistributionFunction.cpp:238-259", "src/DistributionFunction/CODEDistributionFunction.cpp:342-348"]}
{"id": "C106", "title": "Positions that are not numbers are not taken for positions", "statement": "Asked about a position (or a value) that is NaN, the library gives NaN, throws an exception, or, where the answer is yes or no, says that the position is outside: fields, radial profiles, tabulated distributions, the wall tests and the colour map never give an ordinary answer and never behave undefined.", "quantifier": "all walls, grids, tables and parameters, every combination of coordinates that are NaN", "why_tests_cant": "The result of a comparison with NaN decides which branch is taken, and each routine has to be followed for every combination of coordinates and every wall or grid.", "anchors": ["src/MagneticField/MagneticField2D.cpp:42-73", "src/MagneticField/MagneticField2D.cpp:367-457", "include/softlib/ImageGenerator/ImageColormap.h:34-60", "src/DistributionFunction/PowerRadialProfile.cpp:41-50", "src/DistributionFunction/NumericDistributionFunction.cpp:28-110", "src/DistributionFunction/NumericMomentumSpaceDistributionFunction.cpp:25-49"]}
{"id": "C107", "title": "Results of field evaluations stay what they are", "statement": "A result returned by Eval, EvalDerivatives or EvalFluxDerivatives of a magnetic field shows the values in the point asked for until the same function is called again on the same object, or the object is destroyed; other objects, clones and the other functions have no influence on it, and a copy of a result stays as it is for ever.", "quantifier": "any number of fields of both kinds, every sequence of evaluations, clones, conversions, changes and destructions", "why_tests_cant": "The values are shown through memory that is used again; a test calls the functions in one order, and a result that has been overwritten looks like any other.", "anchors": ["include/softlib/MagneticField/MagneticField2D.h:8-43", "src/MagneticField/MagneticFieldNumeric2D.cpp:43-107", "src/MagneticField/MagneticFieldNumeric2D.cpp:300-476", "src/MagneticField/MagneticFieldAnalytical2D.cpp:113-314"]}
{"id": "C108", "title": "Pointers into the history of an integration stay valid", "statement": "A pointer returned by LastSolution, LastDerivative, SolutionAt or DerivativeAt for a stored entry stays valid, and shows the same values, for as long as the integration proceeds; after a new initial value it shows the new entries.", "quantifier": "every sequence of initial values and steps, of any length, and every behaviour of the allocator", "why_tests_cant": "The arrays grow by reallocation after every 1000 entries, and whether the allocator moves them is not visible to a test; short runs never reach the first reallocation.", "anchors": ["include/softlib/Integrator/Integrator.tcc:46-55", "include/softlib/Integrator/Integrator.tcc:72-88", "include/softlib/Integrator/Integrator.tcc:148-162", "include/softlib/Integrator/Integrator.tcc:181-195"]}
{"id": "C109", "title": "Pointers to settings and blocks stay valid", "statement": "A pointer obtained from a configuration block for a setting or a sub-block stays valid, shows the current values and is what the block returns for the name, whatever is defined, added, copied, merged or destroyed elsewhere, as long as the block itself exists.", "quantifier": "every history of calls on any number of blocks and settings, of any depth, with any pointers the caller holds", "why_tests_cant": "Whether a pointer dangles depends on the whole history of ownership, and using freed memory usually goes unnoticed in a test.", "anchors": ["src/Configuration/ConfigBlock.cpp:36-88", "src/Configuration/ConfigBlock.cpp:127-134", "src/Configuration/ConfigBlock.cpp:164-173", "src/Configuration/ConfigBlock.cpp:311-363"]}
{"id": "C110", "title": "Distributions in the old SOFT format load as stored", "statement": "A file in the old SOFT format is loaded exactly if it has all grids and values in the documented sizes, a known momentum unit and verification vectors that agree; the loaded distribution has the radii, pitches and values of the file, with the momenta divided by the factor of the unit, and the momentum distribution of radius i has the values stored for that radius; nothing outside the data is read.", "quantifier": "every file, every size of the grids, every radius index", "why_tests_cant": "All combinations of shapes, sizes beyond 32 bits, empty grids and positions of a mismatch.", "anchors": ["src/DistributionFunction/deprSOFTDistributionFunction.cpp:38-57", "src/DistributionFunction/deprSOFTDistributionFunction.cpp:82-112", "src/DistributionFunction/deprSOFTDistributionFunction.cpp:124-231", "src/DistributionFunction/deprSOFTDistributionFunction.cpp:257-285"]}
{"id": "C111", "title": "LUKE distributions load as stored", "statement": "A LUKE distribution file is loaded exactly if it has the three grids, the thermal speed and the values in the documented sizes; the loaded distribution has the pitches and values of the file, the momenta multiplied by the thermal speed, and its radii mapped from the normalised radius to the major radius, 0 to the magnetic axis and 1 to the largest radius, keeping their order; the momentum distribution of radius i has the values stored for it; nothing outside the data is read.", "quantifier": "every file, every size of the grids, every radius index, every magnetic field", "why_tests_cant": "All sizes and shapes, truncation to 32 bits, and radii that coincide after rounding.", "anchors": ["src/DistributionFunction/LUKEDistributionFunction.cpp:35-54", "src/DistributionFunction/LUKEDistributionFunction.cpp:77-106", "src/DistributionFunction/LUKEDistributionFunction.cpp:118-215"]}
{"id": "C112", "title": "DREAM output is read on the momentum grid of the named distribution", "statement": "If a distribution is named, the reader of DREAM output takes that variable (a full path as given, otherwise a variable of the equation system) with the runaway grid for f_re and the hot-tail grid for f_hot; without a name it takes f_re if present and otherwise f_hot; every other name, and every missing variable, is refused with a SOFTLibException.", "quantifier": "every name of any length and every set of variables of the file", "why_tests_cant": "Names are unbounded; the failure needs a full path that exists and is shorter than the suffix compared with.", "anchors": ["src/DistributionFunction/DREAMDistributionFunction.cpp:90-118"]}
{"id": "C113", "title": "Readers of distributions release what they allocate, as it was allocated", "statement": "Loading a numeric distribution from a file and destroying it leaves no memory allocated; every block is released once and by the operator that belongs to its allocation; the same holds if loading ends in an exception.", "quantifier": "every number of radii, every place where an exception can be thrown, with and without verification vectors and logarithms", "why_tests_cant": "Leaks and mismatched release operators do not change any value a test looks at; the places where an exception can leave a reader are many.", "anchors": ["src/DistributionFunction/SOFTDistributionFunction.cpp:140-265", "src/DistributionFunction/deprSOFTDistributionFunction.cpp:38-285", "src/DistributionFunction/LUKEDistributionFunction.cpp:36-217", "src/DistributionFunction/DREAMDistributionFunction.cpp:37-192", "include/softlib/DistributionFunction/NumericDistributionFunction.h", "include/softlib/DistributionFunction/NumericMomentumSpaceDistributionFunction.h"]}
{"id": "C114", "title": "Values written in scripts are the values a program gets", "statement": "Whatever the layout of a script, the setting reached by a path of blocks and a name gives, through its typed getters, the numbers and truth values denoted by the words of its last definition; if a second script is merged in, its definitions count first (with new names allowed) or where the first script has the setting (without).", "quantifier": "every document of any size and nesting with valid words, every layout of it with blanks and comments, every path, name and index, every pair of documents for merging; whole numbers within the range of the getter, number texts without range error", "why_tests_cant": "It composes scanning, parsing, overriding, merging and conversion; tests exercise a few scripts and cannot range over layouts and nested redefinitions.", "anchors": ["src/Configuration/Script/Lexer.cpp", "src/Configuration/Script/Interpreter.cpp", "src/Configuration/ConfigBlock.cpp: Merge, AddSetting", "src/Configuration/Script/SettingScript.cpp:44-277"]}
{"id": "C115", "title": "Loaded distributions have the stored values at the stored nodes", "statement": "After a distribution file has been loaded, evaluating the distribution at one of the radii of the file (counted from the magnetic axis, plus the drift shift) and at a node of its momentum grid gives the value stored in the file for that radius and node; between two radii the value lies on the straight line through the two stored values.", "quantifier": "every file of any number of radii and any grid sizes that is accepted, every radius, node, axis position and drift shift; any spline that reproduces the values of its table at the nodes", "why_tests_cant": "It composes loading, slicing, insertion, search and interpolation over all sizes and orderings; tests look at a few files and seldom at index arithmetic for unequal dimensions.", "anchors": ["src/DistributionFunction/SOFTDistributionFunction.cpp:38-265", "src/DistributionFunction/DREAMDistributionFunction.cpp", "src/DistributionFunction/NumericDistributionFunction.cpp", "src/DistributionFunction/NumericMomentumSpaceDistributionFunction.cpp"]}
{"id": "C116", "title": "Error messages show the texts and numbers they are given", "statement": "The message of every exception thrown with arguments, and every progress line, is its literal text with each argument in its place: names and file names appear as they are, whatever characters they have, and numbers with their value; no message has undefined behaviour.", "quantifier": "every place that throws with arguments or prints progress, every value of the arguments, texts without zero character", "why_tests_cant": "Most messages are never produced by tests, and wrong argument sizes, signs or percent signs in names only show for particular values.", "anchors": ["include/softlib/SOFTLibException.h:17-36", "include/softlib/ConfigurationException.h:12-26", "src/MagneticField/MagneticFieldNumeric2D.cpp:543-557", "src/SFile/SFile_SDT.load.cpp:75", "src/DistributionFunction/SOFTDistributionFunction.cpp:233", "src/DistributionFunction/LUKEDistributionFunction.cpp:167", "include/softlib/General/Matrix.tcc:65-96"]}
{"id": "C117", "title": "Linear interpolation keeps the stored values and stays between them", "statement": "A momentum distribution tabulated with linear interpolation (of the values or of their logarithms) has the stored value at every node of its grids, and at every other point of the tabulated rectangle lies between the smallest and the largest stored value of the surrounding four nodes, whichever of several adjoining cells is looked at; a table whose grids are not strictly increasing is reported with an exception.", "quantifier": "every table of at least two by two points, every point, with and without flipped pitch and logarithms", "why_tests_cant": "It is about all real points of all tables, including points on the borders of cells and tables with zeros; tests look at smooth tables inside cells.", "anchors": ["src/DistributionFunction/NumericMomentumSpaceDistributionFunction.cpp:25-130", "include/softlib/DistributionFunction/NumericMomentumSpaceDistributionFunction.h:40-60"]}
{"id": "C118", "title": "Distributions made from non-negative values are not negative", "statement": "If all values of a distribution file are non-negative, the loaded distribution is non-negative at every radius, momentum, pitch and drift shift at which it can be evaluated.", "quantifier": "every file with any number of radii and any grids, linear interpolation, every point", "why_tests_cant": "It is a property of all points of all files; tests compare single values.", "anchors": ["src/DistributionFunction/NumericDistributionFunction.cpp:28-72", "src/DistributionFunction/SOFTDistributionFunction.cpp:38-265", "src/DistributionFunction/NumericMomentumSpaceDistributionFunction.cpp:25-49"]}
{"id": "C119", "title": "Numeric fields report what they cannot do", "statement": "Making a numeric magnetic field, from arrays, from a file, from a LUKE equilibrium, from an analytical field or from another one, and asking it for the field, its derivatives or the flux at any position, either succeeds or is reported with an exception; it does not end the program.", "quantifier": "every grid and arrays of any sizes, every file, every position, every kind of spline", "why_tests_cant": "The tests use one grid that the splines accept and positions inside of it.", "anchors": ["src/MagneticField/MagneticFieldNumeric2D.cpp:262-291", "src/MagneticField/MagneticFieldNumeric2D.cpp:300-358", "src/MagneticField/MagneticFieldNumeric2D.cpp:439-475", "src/MagneticField/MagneticFieldLUKE.cpp:50-69"]}
{"id": "C120", "title": "CODE distributions load as stored", "statement": "Loading a distribution of the program CODE and evaluating it gives, at every momentum and pitch, the Legendre series of the stored modes of the selected time step, interpolated between the stored momenta and zero outside of them; whatever cannot be loaded is reported with an exception.", "quantifier": "every file with any numbers of momenta, modes and time steps, every time index, momentum, pitch and history of evaluations", "why_tests_cant": "The test loads one file that the library's authors produced, with increasing momenta and many modes.", "anchors": ["src/DistributionFunction/CODEDistributionFunction.cpp: Load, Initialize, InterpolateOneLegendreMode, Eval"]}
{"id": "C121", "title": "GO+CODE distributions load as stored", "statement": "Loading a distribution of the programs GO+CODE and evaluating it gives, at every radius, momentum and pitch, the straight line in radius between the CODE distributions stored for the selected time step at the neighbouring radii, and outside of them its continuation; whatever cannot be loaded is reported with an exception; a clone gives the same values.", "quantifier": "every file with any numbers of radii and time steps, every time index, position and history of evaluations and cloning", "why_tests_cant": "There is no test of this class.", "anchors": ["src/DistributionFunction/GOCODEDistributionFunction.cpp: Load, Eval, MinClone", "src/DistributionFunction/CODEDistributionFunction.cpp: Load, Eval"]}
{"id": "C122", "title": "Evaluations of numeric fields and tables do not depend on other evaluations", "statement": "An evaluation of a numeric magnetic field (vector, derivatives, flux, flux derivatives) or of a tabulated distribution function gives the value of the interpolation at its point, whatever the object has been asked before; and when every thread works on its own clone, it does so however the steps of the threads are interleaved. The accelerators of GSL, kept from one evaluation to the next, never lead to another cell nor to a read outside of the grid.", "quantifier": "every grid, every number of threads, objects and evaluations, every schedule, every content of the accelerators left by earlier evaluations", "why_tests_cant": "The tests evaluate one object in one thread and in a fixed order; the number of interleavings is unbounded.", "anchors": ["src/MagneticField/MagneticFieldNumeric2D.cpp: InitInterpolation, Eval, __EvalJacobian, EvalDerivatives, EvalFlux, EvalFluxDerivatives, Clone", "src/DistributionFunction/NumericMomentumSpaceDistributionFunction.cpp: Eval, Initialize, MinClone"]}
{"id": "C123", "title": "Numeric fields have the stored values at the nodes and the derivatives they report everywhere", "statement": "Interpolated with the bicubic splines of GSL, a numeric magnetic field has the stored components (and flux) at every node of its grid at every toroidal angle; inside the grid, also where cells meet, it is differentiable and the reported Jacobian, the gradient of the strength and the flux derivatives are its derivatives; components that are linear in radius and in height are reproduced between the nodes as well; and no division by zero happens when the splines are made.", "quantifier": "every grid of at least four by four points, every data, every point inside the grid off the torus axis, every differentiable curve through it", "why_tests_cant": "The tests compare a few points of one smooth equilibrium with tolerances.", "anchors": ["src/MagneticField/MagneticFieldNumeric2D.cpp: InitInterpolation, Eval, __EvalJacobian, EvalDerivatives, EvalFlux, EvalFluxDerivatives"]}
{"id": "C124", "title": "Tables with cubic interpolation keep the stored values, are smooth, and are not negative", "statement": "A tabulated momentum-space distribution with cubic interpolation has the stored values at every node, is differentiable inside the tabulated rectangle also where cells meet, and is not negative if the stored values are not; with interpolation of the logarithm the stored values are kept as well and the values between are positive.", "quantifier": "every table of at least four by four points that is accepted, every value, plain and logarithmic, both signs of the pitch, every point", "why_tests_cant": "The tests interpolate smooth positive functions linearly and compare with tolerances.", "anchors": ["src/DistributionFunction/NumericMomentumSpaceDistributionFunction.cpp: Initialize, InitializeLog, Eval"]}
{"id": "C125", "title": "Modes of CODE distributions are interpolated through the stored values, between them and smoothly", "statement": "With every type of interpolation that can be selected, the Legendre modes of a CODE distribution have the stored values at the stored momenta, stay between neighbouring stored values, and are differentiable; the loaded distribution is the positive part of the stored Legendre sum at every stored momentum, and its conversion to a table agrees with it at all nodes of the table.", "quantifier": "every file, every type of interpolation, every history of evaluations, both pitch grids of any size, plain and logarithmic tables, linear and cubic tables", "why_tests_cant": "The tests load one file with one type and compare with tolerances.", "anchors": ["src/DistributionFunction/CODEDistributionFunction.cpp: InitInterpolation, Eval, ToMomentumSpace"]}
{"id": "C126", "title": "Linear interpolation in floating point keeps stored values and bounds", "statement": "Evaluated in double precision, a tabulated momentum distribution with linear interpolation returns exactly the stored value at every node, is never negative where the stored values are not, stays between the smallest and the largest stored value, gives on the border of two cells the same value from both, and differs from the exact interpolation by no more than a fixed number of units in the last place of the largest value; the distribution function that interpolates such tables in radius keeps these bounds.", "quantifier": "every table of at least two by two numbers, every point, with and without flipped pitch, every rounding that is monotone with bounded relative error (double in particular)", "why_tests_cant": "Tests compare with tolerances at a few points; the sign and the bound on the error have to hold for every rounding of every operation.", "anchors": ["src/DistributionFunction/NumericMomentumSpaceDistributionFunction.cpp:25-95", "src/DistributionFunction/NumericDistributionFunction.cpp:28-72"]}
{"id": "C127", "title": "Including a file is writing its contents in place", "statement": "A configuration text with inclusion marks <file> loads exactly as the text in which every mark is replaced by what the named file stands for: the same blocks, settings, errors and exceptions, for files nested to any depth; a file that does not exist is reported by an exception; the files named are the files read.", "quantifier": "every text, every set of files, every nesting of inclusions that ends, every place of the marks outside strings and comments, every file name", "why_tests_cant": "Tests include one file at one place; the kind of a word depends on the words before it, on both sides of every mark.", "anchors": ["src/Configuration/Script/Lexer.cpp: include_file, Lex"]}
{"id": "C128", "title": "Several threads may ask one magnetic field about its radii and its domain", "statement": "Threads that call GetMaxRadius, GetMinRadius, FindMaxRadius, FindMinRadius and GetDomainBounds on one field get what each would get alone, without data races, in whatever order their steps are taken, and what the field remembers afterwards is right.", "quantifier": "every contour and axis, every number of threads, every list of calls for each, every interleaving of the accesses to the members", "why_tests_cant": "The wrong answers need one thread between two particular accesses of another; a run shows one interleaving.", "anchors": ["src/MagneticField/MagneticField2D.cpp: GetDomainBounds, GetMaxRadius, GetMinRadius, FindMaxRadius, FindMinRadius"]}
{"id": "C129", "title": "Saving an image gives a complete file or an exception and releases what it used", "statement": "ImageGenerator::gen either leaves the complete image in the file or throws the library's exception, without undefined behaviour, and in both cases all memory and file handles it used have been released.", "quantifier": "every format and colour map argument, every image and size, every way the system and libpng can fail, any number of calls", "why_tests_cant": "Leaks change no pixel, and failures of the file system and of libpng at each particular call cannot be produced by ordinary tests.", "anchors": ["src/ImageGenerator/ImageGenerator.cpp: gen, GetImageGenerator", "include/softlib/ImageGenerator/ImageGenerator.h: InitColormaps, SaveImage", "src/ImageGenerator/ImageGeneratorPNG.cpp: SaveImage", "src/ImageGenerator/ImageGeneratorPPM.cpp: SaveImage"]}
{"id": "C130", "title": "Readers of magnetic fields release what they allocate", "statement": "Loading a numeric or LUKE magnetic field from a file and destroying the object leaves no memory allocated; every block is released once, by the operator that belongs to its allocation, and no value is read that was never set; the same holds if loading ends in an exception, if an object is loaded again, and for saving.", "quantifier": "every file with or without flux, verification vectors, wall and separatrix in either orientation and of any length, every place where an exception can be thrown, any number of loads", "why_tests_cant": "Leaks change no value a test looks at, and there are more than thirty places where an exception can leave a reader; reading an uninitialised member during the clean-up usually goes unnoticed.", "anchors": ["src/MagneticField/MagneticFieldNumeric2D.cpp:21-79, 262-289, 485-792", "src/MagneticField/MagneticFieldLUKE.cpp:50-344", "include/softlib/MagneticField/MagneticFieldNumeric2D.h", "src/SFile/SFile.cpp:34-64, 150-166"]}
{"id": "C131", "title": "Vector operations mean the same for integer and complex elements", "statement": "For every element type, dividing a vector by a scalar divides each element, Norm is the Euclidean norm, Normalize makes it one, Dot of a vector with itself is the square of the norm, and converting between element types keeps the values.", "quantifier": "every number of elements, every vector of 32-bit integers or of complex numbers, every scalar, every rounding of double", "why_tests_cant": "The tests use vectors of double only; the templates compile silently for other types, and the wrong results depend on the conversions the compiler inserts.", "anchors": ["include/softlib/General/Vector.tcc:13-31, 97-205, 285-289", "include/softlib/Vector.h:7-44"]}
{"id": "C132", "title": "Integers round-trip through SDT files", "statement": "Arrays and lists of 32-bit and 64-bit integers, signed and unsigned, written to an SDT file come back unchanged when they are read by the functions for the same type, whatever else is in the file.", "quantifier": "every integer of each type, arrays and lists of any size, any variables before and after, every stream that rounds decimal numbers correctly", "why_tests_cant": "The tests write small integers; integers above 2^53 lose digits because everything is read as double, and the largest ones lead to undefined behaviour that usually returns a plausible number.", "anchors": ["src/SFile/SFile_SDT.cpp:147-186, 202-258, 327-355, 406-415", "src/SFile/SFile_SDT.load.cpp:60-89", "src/SFile/SFile.cpp:175-312"]}
{"id": "C133", "title": "Floating point numbers round-trip through SDT files", "statement": "Arrays and attributes of floating point numbers written to an SDT file can be read back, and each number comes back unchanged.", "quantifier": "every number that can be stored, including infinite ones and those that are not numbers, arrays of any size, any variables before and after", "why_tests_cant": "The tests compare a few numbers with a tolerance; the stream writes six digits only, so nearly every other number is changed, and grids whose points are close together cease to be increasing.", "anchors": ["src/SFile/SFile_SDT.cpp:327-340, 342-344, 371-375", "src/SFile/SFile_SDT.load.cpp:60-89"]}
{"id": "C134", "title": "The domain of an analytical field is its plasma", "statement": "A point is reported to lie outside the domain of an analytical field exactly if its distance from the magnetic axis is at least the minor radius, and a path that leaves the plasma, or comes back into it, is noticed.", "quantifier": "every magnetic axis, minor radius, number of points on the boundary (at least four, the code has fifty), every point and every path", "why_tests_cant": "The wrong answers lie on rays from the axis and in slivers along the boundary, which sampled points miss almost surely, and the number of paths is unbounded.", "anchors": ["src/MagneticField/MagneticFieldAnalytical2D.cpp:78-105", "src/MagneticField/MagneticField2D.cpp:20-73", "include/softlib/MagneticField/MagneticFieldAnalytical2D.h:22"]}
{"id": "C135", "title": "Integrators can be copied and destroyed", "statement": "However integrators are created, copied, given initial values, advanced and destroyed, nothing undefined happens, every integrator holds the steps that were stored in it, and when it has been destroyed its memory is released.", "quantifier": "every sequence of creations, copies, initial values, steps and destructions, any number of integrators and steps, any stored values, and whether or not realloc moves the array each time it is called", "why_tests_cant": "The number of sequences is unbounded, and the undefined case needs an array that is full at the moment of copying and a realloc that moves it, which depends on the allocator.", "anchors": ["include/softlib/Integrator.h:13-65", "include/softlib/RKDP45.h:10-16", "include/softlib/Integrator/Integrator.tcc:18-55", "include/softlib/Integrator/Integrator.tcc:148-162"]}
{"id": "C136", "title": "Integrators report calls that come out of order", "statement": "Whatever functions of an integrator are called, and in whichever order, a call that cannot be answered (an initial value without an equation, a step without an initial value, a point or dense output of steps that were not taken) is reported by an exception, nothing undefined happens, and every answer belongs to the present integration.", "quantifier": "every sequence of calls of the public functions, any number of equations, integrations and steps, any times", "why_tests_cant": "The number of orders is unbounded, and what is read out of order is memory that was never written, or that an earlier integration has left, and often looks right.", "anchors": ["include/softlib/Integrator/Integrator.tcc:18-86", "include/softlib/Integrator/Integrator.tcc:131-195", "include/softlib/Integrator/RungeKutta.tcc:71-133", "include/softlib/Integrator/RKDP45.tcc:55-120", "include/softlib/Integrator/GeneralEquation.tcc:11-37", "include/softlib/Integrator.h:15-29"]}
{"id": "C137", "title": "Rounding errors of an integration stay proportional to the unit of rounding", "statement": "Each sum of the Dormand-Prince method is computed to within a few units of rounding of the sum of its absolute terms, and every value that an integration stores differs from the one of the exact method with the same steps by at most a growth factor, the product of 1 + 25 L |h| over the steps, times the sum over the steps of an amount proportional to the unit of rounding.", "quantifier": "every rounding that keeps the order and has bounded relative error (float, double), every equation with Lipschitz constants in value and time, every number of components and steps with L |h| at most 1, every step-size control parameter, pow and error estimate", "why_tests_cant": "Tests compare a few integrations with known solutions and cannot tell rounding from the error of the method, nor bound it for other equations.", "anchors": ["include/softlib/RKDP45.h:14-32", "include/softlib/Integrator/RKDP45.tcc:16-41", "include/softlib/Integrator/RungeKutta.tcc:71-112"]}
{"id": "C138", "title": "The analytical magnetic field is accurate in floating point", "statement": "In floating point, every component of the analytical magnetic field is computed to within a relative error proportional to the unit of rounding.", "quantifier": "every rounding with bounded relative error (float, double), every hypot and sqrt of bounded relative error, every field, safety factor profile and point off the axis of symmetry where the safety factor is not zero", "why_tests_cant": "Tests compare the field at a few points against the same formula in the same arithmetic.", "anchors": ["src/MagneticField/MagneticFieldAnalytical2D.cpp:113-130", "src/MagneticField/MagneticFieldAnalytical2D.cpp:144-194"]}
{"id": "C139", "title": "Steps accepted in floating point meet the tolerance up to a few units of rounding", "statement": "The error estimate computed in floating point is NaN or infinite exactly when the exact one is, and otherwise differs from it by at most a factor that is 1 up to 2 (N + 9) units of rounding. So every step that an integration stores has a computed error whose root mean square over the tolerances is at most that factor, and every step with an error below one over the factor is accepted.", "quantifier": "every rounding that keeps the order and has bounded relative error (float, double), every root function of bounded relative error, all non-negative tolerances, any number of components, steps and trial steps, every equation, pow and step-size control parameter", "why_tests_cant": "Tests check the error of a few integrations against loose bounds and cannot reach the cases in which rounding decides whether a step is accepted.", "anchors": ["include/softlib/Integrator/RungeKutta.tcc:36-47", "include/softlib/Integrator/RungeKutta.tcc:86-112", "include/softlib/Integrator/RungeKutta.tcc:144-176"]}
{"id": "C140", "title": "Questions about a configuration block agree with each other and with its contents", "statement": "Asking whether a block has a setting, sub-block, sub-block of a type or setting not yet read answers yes exactly if the corresponding request returns one and the corresponding list contains one; asking for a setting by name gives the first of the values it was given last, and fails exactly if it was never given; every sub-block is found under its own type and name; blocks that compare equal, and copies, give equal answers.", "quantifier": "every block a program can make, every name and type, every history of definitions and questions", "why_tests_cant": "Tests ask a few questions about a few blocks; agreement for every tree and after every history of redefinitions and reads needs proof.", "anchors": ["src/Configuration/ConfigBlock.cpp:14-29", "src/Configuration/ConfigBlock.cpp:93-278", "src/Configuration/ConfigBlock.cpp:380-397", "src/Configuration/Script/SettingScript.cpp:94"]}
{"id": "C141", "title": "The numerical magnetic field is accurate in floating point", "statement": "In floating point, and within the radial range of the grid, turning what the interpolation returns into Cartesian components makes an error of the field, its strength, its Jacobian, its curl and the gradient of the strength of a fixed number of units of rounding: of the length of the field for the first two, of the size of the terms for the others. The radius at which the interpolation is asked is accurate, so that the field as a whole is off by these roundings, by what the interpolation gets wrong and by what it changes over the error of the radius. Strength and gradient are NaN exactly if the field is zero.", "quantifier": "every rounding with bounded relative error (float, double), every hypot and sqrt of bounded relative error, every interpolation, every point within the radial range of the grid including the axis of symmetry", "why_tests_cant": "Tests compare the field at a few points with loose tolerances.", "anchors": ["src/MagneticField/MagneticFieldNumeric2D.cpp:300-321", "src/MagneticField/MagneticFieldNumeric2D.cpp:333-395", "src/MagneticField/MagneticFieldNumeric2D.cpp:397-431"]}
{"id": "C142", "title": "The analytical distribution functions are accurate in floating point", "statement": "In floating point the avalanche distribution, the Connor-Hastie distribution and the exponential pitch distribution have, where the exact value is defined, a value with a relative error of a modest multiple of the unit of rounding times one plus the size of the exponent, and the product with a radial profile adds one rounding.", "quantifier": "every rounding with bounded relative error (float, double), every sqrt and exp of bounded relative error, every field strength and effective charge above -1, every momentum, every pitch", "why_tests_cant": "Tests compare the distributions at a few ordinary points with loose tolerances; the errors are large only at a large charge or a large momentum.", "anchors": ["src/DistributionFunction/AnalyticalAvalanche.cpp:47-80", "src/DistributionFunction/ConnorHastieDistribution.cpp:38-69", "src/DistributionFunction/ExponentialPitch.cpp:33-35", "src/DistributionFunction/RadialDistributionFunction.cpp:28-30"]}
{"id": "C143", "title": "Dense output is accurate in floating point", "statement": "In floating point, every answer of dense output to sorted requests within the integrated interval is off by at most 40 units of rounding of the size of the terms from the value that the interpolation of the Dormand-Prince method has in exact arithmetic, at the fraction of the step that the stored times give and for the values, slopes and stages of the step that answers.", "quantifier": "every rounding with bounded relative error (float, double), every equation, every error estimate and pow, every number of steps, every list of sorted requests", "why_tests_cant": "Tests compare dense output with a solution to the tolerance of the integrator; an error of the interpolation that grows with the length of the step or near the ends of steps hides in it.", "anchors": ["include/softlib/Integrator/RKDP45.tcc:64-120", "include/softlib/RKDP45.h:26-32", "include/softlib/Integrator/RungeKutta.tcc:86-133"]}
{"id": "C144", "title": "The 3D wall test is reliable in floating point", "statement": "In floating point, a line of sight that has a point clearly outside and a point clearly inside the cone of a considered sloping wall tile is reported to meet the wall; and when a hit is reported, then some considered tile is level, or nearly as steep as the line, or the line has a point nearly on the cone of that tile. If every considered tile is clear in this sense, the answer is the one of exact arithmetic. The margin is 128 units of rounding times the square of the size of the numbers over the difference of the slopes.", "quantifier": "every rounding with bounded relative error (float, double), every square root with that error, every wall with any number of tiles, every line of sight, with or without outer wall", "why_tests_cant": "The test computes the roots of a quadratic equation from differences of squares, which lose digits when the line is nearly parallel to the tile; a few lines of sight through a vessel do not show where the answer ceases to be reliable.", "anchors": ["src/MagneticField/MagneticField2D.cpp:367-457"]}
{"id": "C145", "title": "Radial profiles keep their shape and accuracy in floating point", "statement": "In floating point the power and the Bessel profile are zero where the rounded shifted radius is outside, one at the inner edge, between zero and one inside and not increasing; the Gaussian profile is zero outside, between zero and its amplitude inside, equal to the amplitude at the centre and not increasing away from it on each side. The values are near those of the exact profile at the rounded radius: within 16 b + 6 units of rounding for the power profile with exponent b, within 60 units and the error of the library for the Bessel profile, and with a logarithm within 6 + 20 ((rho - b)/c)^2 units for the Gaussian profile.", "quantifier": "every rounding with bounded relative error (float, double), every library function that is monotone, right at the ends and accurate as stated, every parameters a constructor accepts, every radius and drift shift", "why_tests_cant": "That a rounded profile never becomes negative, exceeds one or rises again cannot be seen from samples: the quotient of radii, made by multiplication with a rounded reciprocal, could exceed one at some single number next to the outer edge.", "anchors": ["src/DistributionFunction/PowerRadialProfile.cpp:24-49", "src/DistributionFunction/GaussianRadialProfile.cpp:21-53", "src/DistributionFunction/BesselRadialProfile.cpp:24-47", "include/softlib/DistributionFunction/BesselRadialProfile.h:15"]}
{"id": "C146", "title": "Integrations converge to the solution of the equation", "statement": "If the equation is Lipschitz in the value with constant L, the slope of its solution Y Lipschitz in time with constant M, all steps are between 0 and H and 50 L H <= 1, then every stored point is within (|y0 - Y(0)| + 6 M H t) exp(5 L t) of the solution at its time t, and dense output at any times is within three times that and 82 M H^2; so for steps small enough every integration is as near to the solution as desired. The error estimate of a step is at most h (L e + M h)/2. For integrals of a function with five derivatives the error is at most C H^5 t / 60, for linear equations of norm Lambda it is of fifth order as well. With rounded arithmetic and a function that is only computed approximately the error is at most the sum of these bounds and the rounding bound of C137.", "quantifier": "every equation, solution, dimension, initial value, tolerances and sequence of accepted steps satisfying the conditions; for the last part every rounding of bounded relative error", "why_tests_cant": "Convergence is a statement about all equations and all step sequences in the limit; a test compares finitely many integrations with known solutions and cannot see that no equation, and no pattern of step sizes chosen by the control, defeats the method.", "anchors": ["include/softlib/Integrator/RKDP45.tcc:16-41", "include/softlib/RKDP45.h:14-32", "include/softlib/Integrator/RKDP45.tcc:73-117", "include/softlib/Integrator/RungeKutta.tcc:71-133"]}
{"id": "C147", "title": "Integrations of smooth equations do not fail and reach every time", "statement": "If the slope is bounded by B and Lipschitz with constants L in the value and K in time, the absolute tolerance is positive and the relative one not negative, then the error estimate of a step h with 50 L h <= 1 is at most (L B + K) h^2 / 3; every call of Step ends after finitely many rejections with an accepted step, each step and each proposed next step is at least m, one tenth of the largest theta with 50 L theta <= 1 and (L B + K) theta^2 <= 3 atol (or the first proposed step, if smaller), and repeated calls reach every time T after at most T/m + 1 calls, if T times the machine epsilon is below m and the storage holds so many points.", "quantifier": "every such equation, dimension, initial value, tolerances, state of the control and content of new memory", "why_tests_cant": "Whether the loop of rejections in Step ends, and whether the accepted steps cannot shrink so that an integration stalls, concerns every equation and every history of the step control; a test that returns says nothing about the equation on which it would hang.", "anchors": ["include/softlib/Integrator/RungeKutta.tcc:86-176", "include/softlib/Integrator/RKDP45.tcc:16-53", "include/softlib/RungeKutta.h:23-30"]}
{"id": "C148", "title": "The modes of a CODE distribution are the Legendre modes of its values", "statement": "For a CODE distribution with at least two modes and a momentum in its range at which the sum of the modes is nowhere negative, (2 l + 1) / 2 times the integral over the pitch of the value times the Legendre polynomial of the reversed pitch is the stored mode l, and zero for l beyond their number; the integral of the squared value is the sum of the squared modes times 2 / (2 l + 1); distributions with the same values have the same modes. Whatever the sign of the sum, the integral of the value is at least twice the first mode, with equality exactly if the sum is nowhere negative.", "quantifier": "every number of modes, mode functions, momentum and history of evaluations; every file, time step and type of interpolation at the stored momenta", "why_tests_cant": "Integrals over all pitches of all distributions; a test takes finitely many pitches of one distribution.", "anchors": ["src/DistributionFunction/CODEDistributionFunction.cpp:184-198", "src/DistributionFunction/CODEDistributionFunction.cpp:238-259", "src/DistributionFunction/CODEDistributionFunction.cpp:75-170"]}
{"id": "C149", "title": "Numbers of particles and mean pitch of the analytical distributions", "statement": "The factor A / (1 - exp(-2 A)) normalises the avalanche distribution over the pitch: 2 pi p^2 times its integral over all pitches is m_e c exp(-gamma/gamma_0) / gamma_0. Its mean |xi| is 1 / (1 - exp(-A)) - 1 / A, the integral of the exponential pitch distribution is 2 (exp(C) - 1) / C, and the distributions, being even in the pitch, have no net current.", "quantifier": "every momentum other than zero and all parameters with non-zero A and gamma_0", "why_tests_cant": "Integrals over all pitches for all real parameters; tests compare values at a few points with the same formula.", "anchors": ["src/DistributionFunction/AnalyticalAvalanche.cpp:1-18", "src/DistributionFunction/AnalyticalAvalanche.cpp:47-80", "src/DistributionFunction/ExponentialPitch.cpp: Eval"]}
{"id": "C150", "title": "Field lines of the analytical field wind around the torus with the safety factor", "statement": "Each line of the analytical field stays on a circle around the magnetic axis, and in one turn on the circle it goes q(r) times around the torus, in the direction given by the signs of field and current.", "quantifier": "every field, safety factor profile and point between the magnetic axis and the axis of symmetry", "why_tests_cant": "Lines of the field are infinite curves through all of space; tests evaluate the field at points.", "anchors": ["src/MagneticField/MagneticFieldAnalytical2D.cpp:113-130", "src/MagneticField/MagneticFieldAnalytical2D.q.cpp:16-36"]}
{"id": "C151", "title": "The flux reported by the analytical field is the poloidal flux of the field", "statement": "The derivatives of the reported flux in height and in the distance R from the axis of symmetry are 2 pi R times the radial component and minus 2 pi R times the vertical component of the field, so that the flux through a ring around the axis of symmetry changes by the field that the ring sweeps over.", "quantifier": "every field, safety factor profile and point off the axis of symmetry", "why_tests_cant": "An identity between three functions over all of space and all profiles; tests compare the flux with the formula that the code has.", "anchors": ["src/MagneticField/MagneticFieldAnalytical2D.cpp:113-130", "src/MagneticField/MagneticFieldAnalytical2D.cpp:205-253"]}
{"id": "C152", "title": "The current profile of the analytical field gives the current density it stands for", "statement": "With the safety factor of type current and parameters q0 and b, the toroidal component of the reported curl of the field is 2 sigma_I B0 / (q0 Rm) times 1 - (r/rminor)^b; it vanishes at the edge and does not change direction inside.", "quantifier": "every field with this profile and every point off the axis of symmetry", "why_tests_cant": "The tests compare the curl with the same formula at a few points; that the formula belongs to the current it is named for is an identity over all points and parameters.", "anchors": ["src/MagneticField/MagneticFieldAnalytical2D.q.cpp:16-69", "src/MagneticField/MagneticFieldAnalytical2D.cpp:144-194"]}
{"id": "C153", "title": "The answers of the wall tests do not depend on how the step is taken or the wall is listed", "statement": "Whether a straight step crosses the wall (CrossesDomain, IntersectsDomain3D) does not depend on its direction, nor on the toroidal angle it is taken at, nor on the sense in which the vertices of the wall are listed; and a step divided in two is reported exactly if one of its parts is.", "quantifier": "every wall, every step, every angle, every point of division", "why_tests_cant": "Symmetries relate the answers for infinitely many pairs of steps and walls; a test only sees single answers.", "anchors": ["src/MagneticField/MagneticField2D.cpp:33-73", "src/MagneticField/MagneticField2D.cpp:367-457"]}
{"id": "C154", "title": "The strength of the analytical field on its flux surfaces", "statement": "On a flux surface the strength of the analytical field is inversely proportional to the distance R from the axis of symmetry: it is greatest at the innermost and least at the outermost point, in the ratio (Rm + r) to (Rm - r), and the field vanishes nowhere. The reported gradient gives the change of the strength along the field, which is zero exactly in the midplane and positive exactly where the field points towards the axis of symmetry.", "quantifier": "every analytical field with B0 not 0, every profile of the safety factor, every point where the profile can be evaluated, off the axis of symmetry (for the change along curves: also off the magnetic axis)", "why_tests_cant": "The tests compare single values; that trapped particles turn where they should is an ordering of infinitely many values on every flux surface.", "anchors": ["src/MagneticField/MagneticFieldAnalytical2D.cpp:113-130", "src/MagneticField/MagneticFieldAnalytical2D.cpp:144-194"]}
{"id": "C155", "title": "Integrations do not depend on the order, the signs and the units of the variables", "statement": "Writing an equation with its components in another order, with other signs and in other units, and with time in another unit, changes neither which trial steps are accepted nor when the integration fails, and the stored points are the same points in the new variables, provided the absolute tolerance and the first step are given in the new units.", "quantifier": "every equation of any dimension, every order, signs and units, all tolerances and control parameters, any number of steps, any earlier state of the integrator, with or without dense output (the coefficients of the dense output are not compared)", "why_tests_cant": "Tests run one equation in one set of variables; independence compares runs over all equations and all changes of variables.", "anchors": ["include/softlib/Integrator/RungeKutta.tcc:29-176", "include/softlib/Integrator/RKDP45.tcc:16-41", "include/softlib/Integrator/Integrator.tcc:47-55"]}
{"id": "C156", "title": "Nothing leaves a wall unnoticed", "statement": "A particle that is enclosed by the wall (only a bounded part of the poloidal plane can be reached from its place without crossing the wall) cannot, in any number of steps, come to a place that is not enclosed without one of its steps being reported by the wall test (CrossesDomain with the first vertex repeated at the end of the list, or IntersectsDomain3D).", "quantifier": "every wall of any number of vertices and any shape, convex or not, every sequence of steps", "why_tests_cant": "That a wall is tight is a statement about all ways out of it, in any number of steps.", "anchors": ["src/MagneticField/MagneticField2D.cpp:33-73", "src/MagneticField/MagneticField2D.cpp:367-457"]}
{"id": "C157", "title": "Decaying quantities decay, growing ones grow, oscillations keep their amplitude", "statement": "Integrating y' = a y keeps the sign of y, makes it grow in every step if a > 0 and decay in every step if a < 0; integrating x' = w v, v' = - w x keeps the amplitude of the oscillation.", "quantifier": "every rate and frequency, all tolerances, all initial values, any number of accepted steps of any lengths, all control parameters", "why_tests_cant": "Tests follow one decay or gyration for a limited time with one tolerance; the property is about all step sequences the control may choose.", "anchors": ["include/softlib/Integrator/RungeKutta.tcc:22-192", "include/softlib/Integrator/RKDP45.tcc:16-41"]}
{"id": "C158", "title": "Units, levels and up and down do not matter to the wall", "statement": "If all radii are given in another unit of length, and all heights in another unit, measured from another level and upwards or downwards, then CrossesDomain and IntersectsDomain3D give the same answers as before, FindMaxRadius gives the same radii in the new unit (and throws or is undefined exactly as before), and GetDomainBounds gives the same bounds in the new units, the bounds of the height changing places if up becomes down.", "quantifier": "every wall of any number of vertices, every axis, every step, every positive factor for radii, every non-zero factor and every shift for heights", "why_tests_cant": "The factors and the shift are real numbers and the walls are of any number of vertices; the answers rest on ratios of differences which a test checks in the units it is written in.", "anchors": ["src/MagneticField/MagneticField2D.cpp:42-73", "src/MagneticField/MagneticField2D.cpp:141-170", "src/MagneticField/MagneticField2D.cpp:210-249", "src/MagneticField/MagneticField2D.cpp:367-457"]}
{"id": "C159", "title": "Symmetries of the analytical field", "statement": "In a point turned about the axis of symmetry the analytical field reports the turned field, gradient and curl, the turned Jacobian, and the same strength, flux and flux derivatives. In other units of length and field strength, with heights measured from another level, it reports the same quantities in those units. In the mirror image of a point in the plane of the magnetic axis it reports minus the mirror image of what it reports in the point with the toroidal field reversed.", "quantifier": "every field of every safety factor profile, every point off the axis of symmetry, every angle, every positive factor of length, every factor of field strength, every shift of height", "why_tests_cant": "Fifteen quantities at all points, for all angles and units; a wrong sign or factor in one entry of the Jacobian shows only off the planes in which tests are usually made.", "anchors": ["src/MagneticField/MagneticFieldAnalytical2D.cpp:113-130", "src/MagneticField/MagneticFieldAnalytical2D.cpp:144-194", "src/MagneticField/MagneticFieldAnalytical2D.cpp:205-253", "src/MagneticField/MagneticFieldAnalytical2D.q.cpp:16-69"]}
{"id": "C160", "title": "Sums, products and units of tabulated distributions", "statement": "With linear interpolation the momentum distribution tabulated from the values a*f + b*g is a times the one tabulated from f plus b times the one tabulated from g, at all momenta and pitches, inside and outside the table and with flipped pitch; of distributions tabulated by logarithms, also from values with zeros, the one of the products is the product, and a factor of the values is a factor of the distribution; with all momenta given in another unit the distribution is the same at the same momentum.", "quantifier": "every grid of any size, all values (not negative for logarithms), all factors (positive for logarithms), every point", "why_tests_cant": "Grids of any size and all real values; the identities have to hold where cells meet and at the edges of the table.", "anchors": ["src/DistributionFunction/NumericMomentumSpaceDistributionFunction.cpp:25-49", "src/DistributionFunction/NumericMomentumSpaceDistributionFunction.cpp:62-96", "src/DistributionFunction/NumericMomentumSpaceDistributionFunction.cpp:113-130"]}
{"id": "C161", "title": "Memory of tabulated momentum distributions", "statement": "However tabulated momentum distributions are made, initialised (again, with or without logarithms, also with tables that are refused), cloned, evaluated and destroyed, an initialised object can be evaluated also after the caller has released the arrays, no two objects share an accelerator or a spline, and once all objects are destroyed nothing that was allocated for them is left.", "quantifier": "every sequence of operations on any number of objects and tables", "why_tests_cant": "Histories of any length; what is lost shows in no result.", "anchors": ["src/DistributionFunction/NumericMomentumSpaceDistributionFunction.cpp:26-49", "src/DistributionFunction/NumericMomentumSpaceDistributionFunction.cpp:63-98", "src/DistributionFunction/NumericMomentumSpaceDistributionFunction.cpp:114-142", "include/softlib/DistributionFunction/NumericMomentumSpaceDistributionFunction.h:19-62"]}
