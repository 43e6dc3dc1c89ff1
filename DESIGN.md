# Formal model of softlib — design

Target: `hoppe93/softlib` at the pinned commit, source in `/repo` (C++).
Technique: an executable model in Lean 4, function by function, and theorems
about that model. Nothing is run from `/repo`; the tie to the code is the
reading recorded in the comments of the model (file and lines).

## Trusted base

* Lean's kernel (4.33.0) and the Mathlib modules imported one at a time.
* The logical principles reported by `#print axioms` for the property theorems:
  at most `propext`, `Classical.choice`, `Quot.sound`. No others are added. The
  exact list for every property theorem is at the end of this file.
* The faithfulness of the model to the C++ text. Every definition names file
  and lines. Simplifications are listed next to the definition and below.

### General modelling choices

* A C++ `char` is a Lean `Char`, a `std::string` is `List Char`. Lexing decisions
  look only at ASCII characters, so bytes of multi-byte encodings behave as
  ordinary characters. Where bytes matter (SDT strings) they are `UInt8`, and
  `char` is signed as on x86-64.
* The platform is LP64: `int` and `unsigned int` 32 bits, `long`, `size_t` and
  `sfilesize_t` 64 bits, pointers and `double` of the same size.
* Undefined behaviour (out-of-bounds access, use after free, division of
  integers by zero, signed overflow, null pointers, …) is an outcome of its own
  (`ub` or `none`, as said at the definition), never silently totalised.
  Non-termination is an outcome of its own too (`loop`/`diverges`/`fuel`) where the
  code can actually fail to terminate.
* Exceptions are outcomes (`throw`, `throws`, …). Messages are dropped, except in C31.
* `slibreal_t`/`double` are modelled by exact numbers: a linearly ordered field
  (`ℚ`, `ℝ` or an arbitrary one) or, for algorithms that only compare, an
  arbitrary linear order. Rounding, NaN and infinities are *not* modelled except
  where explicitly stated (step-size control distinguishes NaN and infinity, momentum
  tables distinguish NaN and minus infinity, the step control passes products through a
  function `fl` that may flush to zero; `General/RoundModel.lean` rounds every
  operation of the output times, colours, interpolation in radius and linear profile, further
  `…Round…` files those of vectors, integration steps, dense output, peaked integration, golden-section
  search and the wall (crossings and largest radius) —
  theorems `…_rounded…` — to a format with unlimited exponent). Division by an exact zero is a failing
  outcome where the code can reach it.
* Machine integers are `Nat`/`Int` unless the property concerns wrap-around
  (`SettingScript` integer parsing, integrator offsets, image indices, time index
  arithmetic, multi-array sizes), where the width is explicit.
* Leaked memory is modelled only where a property is about it (C70, C98, C102, C103, C104, C113); elsewhere leaks are ignored.

### Parameters standing for code outside the model

| parameter | stands for | assumed |
|-----------|------------|---------|
| `fs` (Config) | the file system seen by `#include` | a fixed partial function from names to texts |
| `erange` (Config) | when `strtod` reports a range error | nothing |
| `Codec` (SFile) | stream output and input of floating point numbers | nothing; round trip only for numbers that are exact under it |
| `text` (General) | the formatted message of `snprintf` | contains no zero byte (written out for the conversions in use in C116) |
| `trial` (Integrator) | `InnerStep` and `EstimateError` of the subclass | nothing |
| `junk`, `garbage` | contents of fresh memory | nothing |
| `mk`, `Spl` (Magnetic) | GSL bicubic splines | nothing, except in the theorems on derivatives, where the hypothesis is written out (written out from GSL and proved in C123) |
| `spline`, `modes` (Dist) | GSL splines of distributions | nothing, except in C59_log_grid, C71_agrees, C92 and C115, where reproduction of nodes is a hypothesis (proved for linear interpolation in C117, for cubic interpolation in C124) |
| `FData`, `Mat` | what an SFile object returns for a name | the backend returns what was written |
| `Lib` (SFile.Hdf) | conversions between stored and requested element types made by the HDF5 library | identity when the types agree; `raw` memory image of characters |
| `File` (SFile.Hdf) | the HDF5 container | a table from paths to groups and data sets; creating a taken name or one without its parent throws; a data set holds its type, extents, elements and attributes; `std::string` results of the library end at the first zero byte |
| `DblToInt` (SFile.Hdf) | conversion of `double` to `int64_t` | partial (undefined outside the range) |
| `besselJ0` | `gsl_sf_bessel_J0` | is the sum of the power series |

### What is modelled

| directory | modules | code |
|-----------|---------|------|
| Verif/Config | Lex*, Interp*, Block*, Tree*, Doc*, Ub*, Merge*, Heap*, Setting*, SFileSetting* | `src/Configuration/*`: lexer, interpreter, blocks, settings, merging, copying, ownership |
| Verif/SFile | FileType, MultiArray, Sdt*, Hdf*, Mat* | `SFile.cpp`, `SFile_SDT*.cpp`, `SFile_HDF5.cpp`, `SFile_MAT.HDF5.cpp` above the HDF5 library |
| Verif/General | Progress*, Timer, Vector* | `ProgressTracker`, `Timer`, `SOFTLibException`, `Vector.tcc`, `Matrix.tcc` |
| Verif/Integrator | Tableau*, RKModel, Store, Step | `Integrator.tcc`, `RungeKutta.tcc`, `RKDP45.tcc` |
| Verif/Image | Image* | colour maps, PPM writer, pixel buffer of the PNG writer |
| Verif/Integration | Peaked* | `PeakedIntegration.cpp` |
| Verif/Magnetic | Domain*, Analytic*, Numeric* | `MagneticField2D`, `MagneticFieldAnalytical2D`, `MagneticFieldNumeric2D` |
| Verif/Dist | Search, Eval, Insert, Numeric*, Momentum*, Code*, Legendre, Load*, Profile*, Bessel | all distribution functions, their loaders, radial profiles |

Files ending in `Model` (and the model sections of `TimerProps`, `FileTypeProps`,
`MultiArrayProps`, `SdtReadsProps`) define the model; files ending in `Props` hold the
property theorems; the others hold specifications and lemmas.

Not modelled at all: `SFile_MAT.Matlab.cpp` (does not compile against the
current headers), PNG encoding, the HDF5 library itself, LUKE equilibrium coordinate transforms, GSL, and code that
cannot be instantiated (`Matrix::operator=`, `Matrix::operator+=` with a matrix and
vector times matrix do not compile when used).

## Properties and plan

| id | what is modelled | how it is proved |
|----|------------------|------------------|
| C01 | `nextc`, `Lex`, `pushbuffer`, `gettkn` as a character machine over the remaining text | invariant of the scanning loop |
| C02 | same; `nextc`'s comment branch can loop | the text `#` diverges (refutation); termination for texts not ending in `#`-at-EOF form |
| C03 | same | refutation for a comment at end of file; positive theorem for newline-terminated comments |
| C04 | same | simulation between two layouts |
| C05 | `gettkn` | decision logic outright |
| C06 | `Lex` + `Interpret` | pretty printer of trees, induction on trees: load ∘ print = build |
| C07 | `Interpret` | grammar as an inductive predicate; soundness and completeness |
| C08 | `advanceTo` reads one past EOF | refutation with witnesses; positive theorem for streams ending after a complete statement |
| C09 | `AddSetting`, `AddSubBlock` on trees | invariant + refinement to finite maps |
| C10, C11 | `RegisterBlockType`, `StringToBlockType` | invariant by induction over registrations; refutation for unknown names |
| C12 | touched flags | history induction; refutation for re-definition |
| C13, C14 | `Merge` on trees | structural induction against a lookup specification |
| C15, C16 | heap of setting / block objects with owner and parent links | refutations and positive parts |
| C17–C19 | `stoi`, `stoul`, … as total parsers with explicit range checks | decision logic, round trip of decimal printing |
| C20 | `SettingSFile` as typed vectors | list computation, refutation |
| C21 | `TypeOfFile`, `GetFileType` | string reasoning |
| C22–C24 | SDT writer, loader, variable table, ownership of buffers | round trip by induction; refutation for second read |
| C25 | `GetMultiArray` pointer table as offsets | induction on rank |
| C26 | `__GetSingle` | decision logic |
| C27, C28 | `ProgressTracker` counters; a two-step non-atomic print per thread | closed form, induction; refutation by interleaving |
| C29, C30 | `Timer` | integer arithmetic, history induction |
| C31 | `ConstructErrorMessage` buffer logic | list reasoning |
| C32, C33 | `Vector`, `Matrix` as functions on indices and as in-place loops | algebra |
| C34 | `Integrator` storage with growing arrays | refinement to a list of steps |
| C35 | coefficient table over ℚ | exact rational arithmetic |
| C36, C37 | `UpdateTimestep`, `Step` | decision logic over ℝ, well-founded rejection loop |
| C38, C39 | dense output polynomials, uniform time grid | algebra |
| C40, C41 | `ImageColormap::Eval`, PPM writer | order reasoning, parser round trip |
| C42, C43 | `PeakedIntegration` | loop invariants |
| C44–C47 | `MagneticField2D` geometry | real algebraic geometry |
| C48–C51 | analytical field over ℝ | derivatives in Mathlib |
| C52–C54 | numeric field around an abstract spline | algebra; table round trip |
| C55–C58 | numeric distribution grids | binary-search invariant, induction over insertions |
| C59–C62 | momentum distributions, CODE Legendre cache, time indices | history induction, recursions |
| C63–C65 | profiles, analytical distributions, grid validation | real analysis |
| C66 | `TimeString` | integer arithmetic |
| C67 | in-place loops over a memory of objects, operands may coincide | loop invariants; refutations |
| C68 | dense output coefficients | exact rational arithmetic |
| C69 | writers of `SFile_MAT.HDF5.cpp` on an HDF5 container | refutation; positive theorems per writer |
| C70, C71 | `InitInterpolation`, `ToMomentumSpace` | array bounds; history induction |
| C74–C76 | writers and readers of HDF5 and MAT files on a container model | frame lemma for later writes, round trip; exact rules for undefined reads |
| C77, C78 | exceptions and attributes of the same | decision logic; refutations |
| C79 | `CreateMAT` header | list reasoning; refutation |
| C80 | `GetIntArray`, `GetIntList`, `GetInt` | induction over elements; refutation |
| C81 | `OpenFile`-independent file contents: `WriteArray`, `WriteAttribute_scalar`, `HasVariable` | frame reasoning over the stored variables |
| C82 | lexer with line and column counters, erasing to the lexer above | invariant: counters equal line and column of the consumed text; refutations |
| C83 | `Interpret` with messages and the index of the token each names, erasing to `interpret` | grammar with error recovery as an inductive relation; both directions by induction |
| C84 | printed durations read back | independent reader of numbers with units; text split into parts; colour codes stripped compositionally |
| C85 | estimates of the remaining time | closed form of the sum of an arithmetic progression; induction along the run |
| C86 | sources and sequences of loads | object state with outcomes; the error flag commutes with interpretation; chunked reading by induction |
| C87 | disk, permissions, stream state of SDT objects, pointer and library handles of HDF5/MAT objects, Create | invariant of the pointer over arbitrary histories; text of a session by induction on the writes; refutations by computation |
| C88 | the arrays filled by ToNumeric2D, the constructor of the numeric field, unwritten memory as an arbitrary parameter | index arithmetic of the layout, rotation of the analytical field, trigonometry |
| C89 | LUKE equilibria: loading of fields, flux, separatrix and wall | exact for well-formed files whose last surface does not start at axis height; four refutations |
| C90 | Accepted steps meet the tolerance | Error estimate in closed form including NaN and infinity; invariant of whole integrations with arbitrary parameters |
| C91 | Known results of whole integrations | Induction over the steps of arbitrary integrations, using the order conditions and the stored dense coefficients |
| C92 | Logarithms inserted with a new array (NumericDistributionFunction.cpp 299) | The untransformed array is inserted and marked as logarithmic: exp(f) instead of f (`C92_refuted_insert_alloc`); `InitializeLog` with a new array reads unset values (`C92_refuted_alloc`). |
| C93 | Largest and smallest crossing of a contour at a height or radius | Lists of vertices; crossings as sets of points of the sides; greatest and least elements |
| C94 | Radii remembered by a field object | Object with members and operations; invariant over all sequences |
| C95 | Runs of several steps after a restart | Simulation between two integrators with the same stored points |
| C96 | Setters of the step-size control | Real parameters; loop of rejections with every sequence of errors |
| C97 | Dense output switched during a run | Record of the steps with coefficients; invariant over all sequences |
| C98 | A heap of numbered blocks; fields hold blocks; programs are lists of operations | Safe for every careful program; exact count of what is lost |
| C99 | The wall test of C47 | Roots of the quadratic equation in [0, 1]; exact characterisation of the report |
| C100 | The loader of C72 for every shape of the arrays | Position in the block of every cell read; case analysis of the whole loader |
| C101 | The reader of C22 with 64-bit sizes and an arbitrary allocator | Filling stopped at the end of the array; relation of lines passed |
| C102 | Lists are numbers; the values and conversions are those of C20 | Number of holders of each list is one while it is allocated and zero after |
| C103 | Counters added to the interpreter of C06-C08; shown to be the same interpreter (C103_same_interpreter) | Made = released + in the tree + lost, with the losses given exactly |
| C104 | Blocks are numbers, never handed out again; GSL takes the number of momenta | Every sequence of operations from an empty memory |
| C105 | One access to the object per step, threads interleaved at will | Invariant on object and program counter of its owner; a measure for completion |
| C106 | Numbers with infinities and NaN, IEEE comparison and arithmetic without rounding | NaN followed through each routine, for every combination of coordinates |
| C107 | Four places for results per object, operations of a program on any number of objects | Each operation leaves the places alone that it does not own (frame), by cases; induction on the program |
| C108 | Blocks of memory; the allocator's choice (move or not) is a parameter of each step | Effect of one operation through a pointer, by cases; induction on the steps |
| C109 | Flat store of settings and blocks with addresses; following or deleting a pointer to nothing is undefined | Invariant (stored pointers are live) and an order on states kept by every call; induction on the history |
| C110 | Reader with 32-bit sizes and rounded verification and scaling | Case by case along the reader; index arithmetic for the slices; exactness of the rounded verdict (C72_rounded) |
| C111 | Reader with 32-bit sizes and rounded mapping | Case by case along the reader; monotonicity of rounding; error propagation |
| C112 | Names as lists of characters; the wrap-around of l-4 written as the condition for it | Suffixes of lists; cases on the length |
| C113 | Allocations, releases and places of exceptions of each reader in the order of the code | Composition of runs; induction on the number of radii |
| C114 | Composition of the lexer, interpreter, merge and setting models | C09, C13, C14, C17–C19 put together |
| C115 | Composition of LoadModel, NumericModel and MomentumModel | C55, C56, C59, C65 put together; GSL is any spline exact at nodes |
| C116 | FormatModel: the conversions of snprintf that are used, and the table of all messages with arguments | flags, widths and precisions are outside; the text of %e is a parameter |
| C117 | LinearModel: bilinear interpolation of GSL with minus infinity and NaN | exact arithmetic; what GSL requires of tables is written out from its source |
| C118 | Composition of LinearModel, NumericModel and LoadModel | linear interpolation; other momentum distributions by hypothesis |
| C119 | GslModel: the requirements of GSL around NumericModel, LukeModel and ConvertModel | the splines themselves are open; no replaced error handler |
| C120 | CodeFileModel: reading of the file and the requirements of GSL, around CodeModel | reals, except that division by zero and roots of negative numbers are a separate outcome; the cubic, Akima and other splines are open |
| C121 | GoFileModel: groups of the file, CodeFileModel for each, evaluation with the state of the CODE distributions | reals, division by zero a separate outcome |
| C122 | AccessModel: evaluations as programs of accesses to accelerators and buffers, interleaved step by step | sequentially consistent interleaving; the spline of a cell is arbitrary; GSL's search and range check written out from its source |
| C123 | BicubicModel: natural cubic splines of rows and columns, polynomials of the cells | exact arithmetic; written from the sources of GSL; grids that GSL accepts |
| C124 | CubicModel: bicubic interpolation of tables with infinities and NaN | exact arithmetic; written from the sources of GSL |
| C125 | ModeModel: the types of interpolation of CODE modes, pitch grids of the conversion | exact arithmetic; written from the sources of GSL, with the cyclic system of the periodic spline |
| C126 | LinearRoundModel: linear interpolation of a table with each operation rounded | finite double values, no overflow or underflow, no fused operations, tables that are not logarithmic |
| C127 | LexModel (include_file, Lex), specification Expands in IncludeProps | file system constant while loading; names are passed to it as they are |
| C128 | QueryModel (one access to a changed member per step, any schedule) | contour and axis do not change meanwhile; findMaxRadius defined with positive radii; exact real arithmetic; sequentially consistent accesses except in the race theorems |
| C129 | SaveModel (number of live blocks of each kind; failures of the system and of libpng at every call) | new does not fail; contents of incomplete files not modelled; png_free and png_destroy_write_struct do not fail |
| C130 | FieldMemModel (allocations, releases and places of exceptions of Load, Transpose, InitInterpolation, BaseInit, LoadWall, Save and the destructor; blocks named by variable and load) | HDF5 files; GetDoubles throws without leaving anything; new does not fail; GSL does not fail; reads within contours are the subject of C47, C94 |
| C131 | ElemModel (vectors of int with overflow and conversions, vectors of complex numbers) | int has 32 bits; the double root of a number below 2^31 has the right integer part; complex arithmetic exact |
| C132 | SdtIntModel (integer readers of SDT files on top of SdtModel) | streams write integers in decimal and read them as the nearest double (ReadsInts); the release of the matrix by the readers is C24 |
| C133 | SdtNumModel (`%g` output and `num_get` input of floating point numbers, character by character) | the C library rounds correctly in both directions; exponent range unlimited; zero without sign |
| C134 | DomainModel (circleDomain, crossesDomain), no simplification but exact arithmetic | real arithmetic; rounding of this test is the subject of C44 (C44_rounded); the axis being outside is shown with rounding as well (C134_refuted_axis_rounded) |
| C135 | CopyModel (resize, grow, put, storeSol, step): implicit copy constructor and destructor of Integrator, StoreSolution and InitialValue on a heap of arrays | one of the three arrays, which are resized together; realloc may or may not move; the counters do not wrap; released memory is not reused; assignment between integrators is not an operation |
| C136 | OrderModel (call, stored, begun, output): the public functions of RKDP45 and GeneralEquation, with every entry of the arrays marked with the integration, place and function it comes from | what is computed is left open (C34-C38, C90-C97); the time of a step is given, or the step throws; equations are not destroyed before the integrator; the counters do not wrap; for dense output it stays switched on (else C97) |
| C137 | StageRoundModel (rowR, stageTime, dpInnerR, dpTrialR): InnerStep with every operation and coefficient rounded, inside the rounded Step of StepRoundModel | finite values, no overflow or underflow, no fused operations; the error estimate is arbitrary (EstimateError is C90); the bounds on values and slopes are those that occur |
| C138 | AnalyticRoundModel (safetyR, AFieldR.eval, AFieldR.strength): the analytical field with every operation rounded and arbitrary library functions | finite values, no overflow or underflow, no fused operations; quadratic and exponential profiles enter through an assumed accuracy of the safety factor |
| C139 | EstimateRoundModel (tolR, errTermR, errAddR, errSumR, estimateR): EstimateError with every operation rounded, inside dpTrialR and rkRunR | no overflow or underflow, no fused operations; the number of components is converted exactly; the root is a parameter |
| C140 | AskModel (index, getConfigBlock, hasSubBlock, hasSubBlocks, eqOp): the remaining questions about a block | blocks are values; the pointer returned for a sub-block is represented by the block |
| C141 | NumericRoundModel (NGridR.eval, jacR, babsR, gradR, NGridR.evalDerivatives): Eval, __EvalJacobian and EvalDerivatives of the numeric field with every operation rounded | no overflow or underflow, no fused operations; the results of GSL, hypot and sqrt are parameters; the constant 1.0 does not widen float expressions |
| C142 | FormulaRoundModel (avalancheR, hastieR, expPitchR, radialR and the constants of Initialize): the analytical distributions with every operation rounded | no overflow or underflow, no fused operations; sqrt, exp and the constant M_PI are parameters; the constants 1.0 and 2.0 do not widen float expressions |
| C143 | StepRoundModel (prepareR, denseEvalR, outputDenseR) with StageRoundModel (fifthR): PrepareDense and OutputDense with every operation rounded | no overflow or underflow, no fused operations |
| C144 | WallRoundModel (wallCoefR, wallRootsR, tileHitR, tileTestR, intersects3DR): IntersectsDomain3D with every operation rounded | no overflow or underflow, no fused operations; sqrt has a relative error of one unit; what C47 and C99 say about the exact test (cones instead of tiles, level tiles) is not repeated |
| C145 | ProfileRoundModel (powerR, gaussianR, besselR): Eval of the radial profiles with every operation rounded | no overflow or underflow; pow, exp and gsl_sf_bessel_J0 are parameters; the linear profile is in General/RoundModel |
| C146 | no model of its own: the tableau and Store models of C35, C37 and the rounded step of C137 | order five is shown for integrals and linear equations; for general equations the bound is of first order |
| C147 | no model of its own: rkStep, rkRun and rkdpTrial of C37, C90 and C95 | default parameters of the step control; exact arithmetic |
| C148 | no model of its own: Code of C60 and codeLoad of C120, with the Legendre polynomials of C61 | exact arithmetic |
| C149 | no model of its own: MomDist of C64 | exact arithmetic |
| C150 | no model of its own: AField of C48 | exact arithmetic |
| C151 | no model of its own: AField of C48 and C50 | exact arithmetic |
| C152 | no model of its own: AField of C48 | exact arithmetic |
| C153 | no model of its own: crossesDomain and intersects3D of C44 and C47 | exact arithmetic |
| C154 | no model of its own: AField of C48 | exact arithmetic |
| C155 | no model of its own: RKModel, ErrorModel of C36, C90 | exact arithmetic |
| C156 | no model of its own: DomainModel of C44, C47 | exact arithmetic |
| C157 | no model of its own: TableauModel, ErrorModel of C35, C90 | exact arithmetic |
| C158 | no model of its own: DomainModel of C44, C45, C47, C93 | exact arithmetic |
| C159 | no model of its own: AField of C48-C51 | exact arithmetic |
| C160 | no model of its own: NMom of C59, linearSpline of C117 | linear interpolation written out from GSL; exact arithmetic |
| C161 | Verif/Dist/TableMemModel.lean: step, run | of a table only the order of the ends of its grids and the sign of its values matter; grids at which GSL aborts are left out; a spline counts as one block |
| C72, C73 | `Verify` (old SOFT files), destructor of DREAM distributions | list reasoning |

## Mutation testing

`seeded/LOG.jsonl` records, for every edit of the model in a scratch copy, which
property theorems stopped proving, and which theorems were tightened because of it.
Edits marked "a fix" repair the modelled program; there the refutation theorems
have to fail.

## Disagreements between code and properties

Each has a refutation theorem with a concrete witness and, where possible, a
positive theorem with the exact guard.

* **C02 Loading a configuration text always terminates.** Refuted as stated: a comment character '#' as last character of a text loops forever, and a self-including file recurses without bound. Proved with guards: texts (and included files) not ending in '#' never diverge; include-free texts not ending in '#' are lexed completely. Refutations: `C02_refuted`.
* **C03 Comments are invisible.** Refuted as stated: the last character of an unterminated comment at the end of the text is read as program text. Proved for comments ended by a newline. Refutations: `C03_refuted`.
* **C06 Configuration texts round-trip.** Refuted as stated only for the empty document (undefined behaviour). Proved for every non-empty document without repetitions, any layout, and for a concrete printer. Refutations: `C06_empty_document_ub`.
* **C07 The interpreter accepts exactly the grammar.** Refuted as stated only for the empty stream. Every non-empty stream: accepted iff in the grammar with balanced braces; unclosed documents throw. Refutations: `C07_refuted`.
* **C08 Syntax errors are always reported, never undefined behaviour.** Refuted as stated: any document whose last statement is cut short by the end of the text (e.g. missing final semicolon) and the empty document read past the token vector. Proved: no undefined behaviour when the last token is ; { or }. The exact condition is C83_undefined_exact: undefined behaviour if and only if there are no tokens or they end within a statement. Refutations: `C08_no_ub_partial`, `C08_cut_statement_ub`, `C08_refuted`.
* **C11 Looking up an unknown block type is distinguishable.** Refuted as stated: every unregistered name is reported with the root's id 0. Proved: never with the id of a user type. Refutations: `C11_refuted`.
* **C12 Untouched settings are exactly those never read.** Refuted as stated: defining a setting twice marks it as read (also through scripts). Exact rule proved for all histories; documented rule proved for settings defined once. Refutations: `C12_refuted`.
* **C15 Merged configurations can both be destroyed.** Refuted as stated: Merge with new settings allowed makes two blocks own the same setting object, so destroying both deletes it twice (C15_refuted). C15_double_free_iff_partial says exactly when; C15_no_new_settings_partial proves destroyability when new settings are not allowed. Refutations: `C15_refuted`.
* **C16 A copied configuration is self-contained.** Refuted as stated: in a copied tree the sub-blocks' parent pointers point into the original (C16_refuted, C16_copied_parents_point_to_original). C16_copy_contents_partial proves equality of contents and freshness of the objects. Refutations: `C16_refuted`.
* **C18 Integer settings: check and conversion agree.** Refuted as stated for unsigned integers: -1 and values of 2^32 and above pass the 32-bit check and are returned modulo 2^32 (C18_refuted). Signed 32- and 64-bit checks proved exactly; unsigned rule proved exactly (C18_unsigned_rule). Refutations: `C18_refuted`.
* **C19 Scalar settings: check is exact.** Refuted as stated: text after the number is accepted and out_of_range escapes from the check (C19_refuted). The limit of stod (ERANGE) is a parameter of the model. Refutations: `C19_refuted`.
* **C20 File-backed settings expose their values unchanged.** Refuted as stated: GetNumericVector and OverwriteValues put n default values before the n values (C20_refuted), and negative integers change sign on overwriting unsigned settings (C20_refuted_unsigned). The result of every overwrite is given exactly (C20_overwrite_numbers_exact, C20_overwrite_others_exact); Copy rejects real and text settings. Refutations: `C20_refuted_unsigned`, `C20_refuted`, `C20_refuted_script`.
* **C22 SDT matrices round-trip.** Refuted as stated: a matrix without rows makes Load write out of bounds (C22_refuted_no_rows) and the default output precision cannot reproduce all numbers (C22_refuted_precision, pigeonhole). Round trip proved for every matrix with a row whose entries the stream format reproduces, among any other variables; the first definition of a name wins. Refutations: `C22_refuted_no_rows`, `C22_refuted_precision`.
* **C24 SDT variables can be read any number of times.** Refuted as stated: reading a scalar twice is a use after free (C24_refuted). C24_repeatable_iff_partial gives the exact condition for all histories. Refutations: `C24_refuted`.
* **C25 Multi-dimensional arrays are row-major views.** Refuted as stated for one dimension (C25_refuted: index wraps, out-of-bounds read) and zero extents. Proved for all ranks of 2 and more with positive extents. Refutations: `C25_refuted`.
* **C27 Progress is reported a fixed number of times.** Refuted as stated: with fewer iterations than lines wanted (n < nprint) the last line reads n/nprint, not 100% (C27_refuted). Proved for all n and nprint >= 1: number of lines, their positions, spacing, last line at iteration n; 100% exactly when n >= nprint. Refutations: `C27_refuted`.
* **C28 Concurrent progress reporting prints each line once.** Refuted as stated: the counter is read outside the critical section, so two overlapping calls can print the same line twice (C28_refuted). Proved for every schedule of any number of calls: at most nprint lines, counters in 1..nprint; undisturbed calls print every counter once. Refutations: `C28_refuted`.
* **C29 Elapsed time decomposes exactly.** Refuted as stated: from one day on the hours are wrong since a day is subtracted as one hour (C29_refuted, C29_wrong_from_a_day). Proved below a day, plus an exact description for all durations. Refutations: `C29_refuted`.
* **C30 Stopwatch accumulates running time only.** Refuted as stated: a second Stop counts stopped time and Continue on a running timer discards time (C30_refuted). Proved for all histories in which Stop and Continue alternate, and the exact result for every other history (C30_every_history). Refutations: `C30_refuted`.
* **C31 Error messages are never truncated.** Refuted as stated: messages of 1000 or more characters lose their last character (C31_refuted). Proved for shorter ones, with an exact description for all. Refutations: `C31_refuted`.
* **C32 Vector arithmetic obeys vector-space laws.** Refuted as stated in double precision: division multiplies by a rounded reciprocal, so entries 49 divided by 49 are not 1 (C32_refuted_rounded_div), and sums are not associative (C32_refuted_rounded_sum). Proved in exact field arithmetic on the memory-level model, where operands may alias each other (Norm over the reals). With every operation rounded: error bounds for division and scalar product (C32_rounded_div, C32_rounded_dot), and the laws that stay exact (C32_rounded_laws, C32_rounded_cross_sign). Refutations: `C32_refuted_rounded_sum`, `C32_refuted_rounded_div`.
* **C33 Matrix arithmetic obeys matrix algebra.** Refuted as stated: scalar*matrix and matrix*scalar add the scalar, scalar-matrix computes matrix-scalar, unary minus changes its operand, *= overwrites while reading and goes out of bounds for M > N (C33_refuted, C33_mul_assign_refuted, C33_mul_assign_self_refuted, C33_mul_assign_out_of_bounds). operator= and += with a matrix (hence matrix+matrix) and vector*matrix do not compile when used. Proved: construction, differences, scalar sums, in-place scaling, matrix*vector, matrix*matrix. What *= computes is proved exactly for every shape with M <= N, also for A *= A (C33_mul_assign_exact): it is the product when the other factor is zero above the diagonal (C33_mul_assign_lower_partial), and always in the first column (C33_mul_assign_first_column). With rounded arithmetic the elements of matrix*matrix, matrix*vector and of the matrix made of two vectors have proved error bounds for every size and precision (C33_rounded_product, C33_rounded_vector, C33_rounded_outer), products with the unit matrix are exact (C33_rounded_unit), and equality with the textbook product is refuted for every precision (C33_refuted_rounded). Refutations: `C33_refuted_rounded`, `C33_mul_assign_self_refuted`, `C33_refuted`, `C33_mul_assign_refuted`, `C33_mul_assign_out_of_bounds`.
* **C34 Integrator remembers every accepted step in order.** Refuted as stated: indices are 32-bit products ntimesteps*N, so for 2^32/N or more stored points the last overwrites the first (C34_refuted: N = 2, 2^31+1 points). Proved for every history that fits into 32 bits, on new and reused integrators, and for every run of Step. Refutations: `C34_refuted`.
* **C36 Step-size control is safe.** Refuted as stated: a NaN error estimate gives a step 0.1 times the old one, below the minimum scale 0.2 (C36_refuted). Everything else proved for all numeric and infinite estimates; real powers, exact arithmetic. Refutations: `C36_refuted`.
* **C37 Integration moves forward in time.** Refuted as stated: at time 0 the underflow test compares with 0*eps and exact rejections never end (C37_refuted_at_zero); also steps below resolution are accepted unchecked (C37_refuted_unchecked), which in double precision leaves the time unchanged (C37_refuted_rounded). Proved: times strictly increase in exact arithmetic; rejections end for nonzero time, and for any time when arithmetic flushes to zero; with rounding times never decrease, and increase after a rejection or for steps above the resolution (C37_rounded, C37_rounded_strict, C37_rounded_rejections_end). Refutations: `C37_refuted_at_zero`, `C37_refuted_unchecked`, `C37_refuted_rounded`.
* **C38 Dense output interpolates the stored solution.** Refuted as stated: requests before the first time are extrapolated (C38_refuted_below) and unsorted requests use the wrong step (C38_refuted_unsorted); undefined with fewer than two points or dense output off (C38_undefined); in double precision the answer at a stored time can differ from the stored solution (C38_refuted_rounded). Proved for sorted requests within the interval, for all reachable integrators; exact results for requests in any order in C38_any_order; with rounding, numbers for all sorted requests (C38_rounded) and the exact value at stored times (C38_rounded_stored) with its error (C38_rounded_error, C38_rounded_same). Refutations: `C38_refuted_rounded`, `C38_refuted_below`, `C38_refuted_unsorted`, `C38_undefined`.
* **C39 Uniform output times cover the interval.** Refuted as stated in double precision: between neighbouring numbers there is no room for strictly increasing times (C39_refuted_rounded: 4 points on [1, 1 + 2^-52]). Proved in exact arithmetic for every proper interval (C39_uniform_times) and every degenerate case; with every operation rounded (C39_rounded, C39_rounded_double): nt times, the first and the last exact, in order, none outside the interval, for every 32-bit number of points. Refutations: `C39_refuted_rounded`.
* **C40 Colour maps clamp and interpolate.** Refuted as stated: the value is divided by vmax instead of vmax - vmin (C40_refuted), and values whose scaled form does not fit an int are undefined (C40_refuted_huge). Proved with vmax read as the width of the range (same thing for vmin = 0, as in both built-in maps), for all values within int range. C40_defined_iff says exactly which values are defined; C40_scaled gives the colour of every range by the width that the code uses. With every operation rounded the clamping stays exact (C40_rounded_low, C40_rounded_high) and a channel is at most one below its neighbours (C40_rounded_between); the one below happens between equal colours (C40_refuted_rounded). Both maps of the library run from black to white with growing brightness (C40_maps). Refutations: `C40_refuted_rounded`, `C40_refuted`, `C40_refuted_huge`.
* **C41 PPM images contain each pixel once.** Refuted as stated: indices are 32-bit, images with more than 2^32 elements repeat elements (C41_refuted). Proved against an independent reader of the PPM format for all smaller images; also for the rows handed to libpng. Refutations: `C41_refuted`.
* **C42 Peaked integration terminates with a trapezoidal sum.** Refuted as stated: the climb to a larger sample ignores the bounds and may never end (C42_refuted_endless), and the first pair is used even outside the bounds (C42_refuted_bounds). Proved for every integrand exceeding the peak value at finitely many grid points. With every operation rounded: a step that is small against the bounds is lost and evaluation does not end (C42_refuted_rounded, for every number of digits); with bounds within 2^52 - 1 steps it ends with the rounded trapezoidal sum (C42_rounded_partial, C42_rounded_double), whose error is bounded for samples that are not negative (C42_rounded_error). Refutations: `C42_refuted_endless`, `C42_refuted_bounds`, `C42_refuted_rounded`.
* **C43 Golden-section search brackets the maximum.** Refuted as stated in double precision: after 80 rounds the result for x is beyond 2*pi (C43_refuted_rounded). Proved in exact real arithmetic, and with every operation rounded as long as the bracket is large compared with the errors (C43_rounded), in double precision for up to 50 rounds (C43_rounded_double; the default tolerance gives 13). Beside the claim: the final comparison returns the middle of the half that does not contain the maximiser (C43_wrong_half), still within the bracket's width. Refutations: `C43_refuted_rounded`.
* **C44 Domain crossing test is exact.** Refuted as stated: a path parallel to any side, however far, is reported as crossing (C44_refuted_parallel); a path starting in the first vertex is not seen (C44_refuted_vertex); the closing side of an open vertex list is never tested (C44_refuted_open); an empty domain is read outside (C44_empty_undefined). Proved: exact characterisation (C44_exact), no crossing missed unless the path starts in the first vertex, and the equivalence when no side is parallel. With every operation rounded: a crossing that is clear by the margins of rounding is never missed (C44_rounded_hit), nothing is reported when every side is clearly missed (C44_rounded_miss), the answer is the exact one if every side is met or missed clearly (C44_rounded; margins in double precision: C44_rounded_double); in double precision a path through the wall close to a corner is missed by both sides (C44_refuted_rounded). Refutations: `C44_refuted_parallel`, `C44_refuted_vertex`, `C44_refuted_open`, `C44_empty_undefined`, `C44_refuted_rounded`.
* **C45 Domain bounds enclose the domain.** Refuted as stated: SetDomain does not invalidate the cached rectangle (C45_refuted). Proved for every history: all answers are the smallest rectangle around the axis and the domain in force at the first query. Refutations: `C45_refuted`.
* **C46 Maximum radius is the outermost midplane crossing.** Refuted as stated: if the closing side reaches the axis height the code always reads or writes outside its arrays (C46_refuted_undefined), which happens in the constructor of every analytical field (C46_refuted_analytical); only the first two crossings are considered and a vertex at axis height counts twice (C46_refuted_third). Proved: correct when the first and last vertex are strictly on one side and at most two sides reach the height; the same for FindMaxMin without the first condition. C46_first_two gives the result for every wall: the largest radius at axis height of the first part of the wall that has two crossings. With every operation rounded the result is the exact one up to 2^-49 of the largest radius (C46_rounded, C46_rounded_double), so that the largest radius found can be outside the wall (C46_refuted_rounded). Refutations: `C46_refuted_undefined`, `C46_refuted_analytical`, `C46_refuted_third`, `C46_refuted_rounded`.
* **C47 3D wall intersection never misses.** Refuted as stated: horizontal tiles with positive radii are never hit (C47_refuted_horizontal, C47_refuted_wall); the pointer overload passes xyz0[1] as height (C47_refuted_pointers). Proved: with coordinates, no crossing of a non-horizontal tile is missed, closing tile included. Refutations: `C47_refuted_horizontal`, `C47_refuted_wall`, `C47_refuted_pointers`.
* **C48 Analytical field is a magnetic field.** Proved for every point off the symmetry axis (magnetic axis included) and every profile that can be evaluated there: Jacobian (along every differentiable curve), divergence, curl, square of the strength. Refuted as stated only for B0*Rm < 0, which the constructor accepts: the reported strength is then minus the norm (C48_refuted). Exact real arithmetic.
* **C49 Analytical gradient of field strength is correct.** Refuted as stated: the code uses (1 - r q') instead of (1 - r q'/q); wherever r q' is non-zero and q is not 1 the gradient is wrong (C49_refuted); on the magnetic axis it is reported as zero (C49_refuted_axis). Proved: exact error (C49_exact), correctness where r q' = 0 or q = 1. Refutations: `C49_refuted`, `C49_refuted_axis`.
* **C52 Numeric field is axisymmetric and keeps its strength.** Refuted as stated: on the torus axis of a grid with rmin = 0 the field is a fixed horizontal vector (C52_refuted_axis), and outside the radial range the horizontal components are scaled by true radius over clamped radius (C52_refuted_outside, C52_norm_exact). Proved: rotation equivariance for every point with nonzero clamped radius, norm inside the radial range, |B|, gradient and curl consistent with the reported Jacobian everywhere, and (given that the spline derivatives are derivatives, which is proved for those of GSL in C123_smooth) Jacobian and gradient are the true ones inside the grid. A zero field makes |B| and its gradient NaN (C52_zero_field). Refutations: `C52_refuted_axis`, `C52_refuted_outside`.
* **C53 Numeric fields round-trip through files.** Refuted as stated: a field without flux cannot be saved (null pointer used as data) and no field can be saved as SDT (WriteMultiArray always throws). Proved for every constructed field with flux, every non-empty grid, HDF5/MAT; the backend is assumed to return what was written. Refutations: `C53_refuted_noflux`, `C53_refuted_sdt`.
* **C54 Cloning a numeric field preserves behaviour.** Refuted as stated: the clone of a field with a separatrix only has an empty domain, and CrossesDomain on it is undefined (C54_refuted_separatrix). Proved: a field with a wall (with or without separatrix and flux) and its clone answer every query alike; the analytical field's clone is the same object value. Refutations: `C54_refuted_separatrix`.
* **C55 Radial grid search finds the enclosing interval.** Refuted as stated for a grid of one radius (always index 0), for decreasing grids accepted by Initialize, and for grids of 2^31-1 radii (signed overflow in the bisection). Proved for every strictly increasing grid of 2 to 2^30 radii. Refutations: `C55_refuted_single`, `C55_refuted_decreasing`, `C55_refuted_overflow`.
* **C56 Numeric distribution interpolates linearly in radius.** Refuted as stated: extrapolation above the grid uses a wrong far point, a first radius of zero divides by zero, Initialize drops the first radius, GO+CODE extrapolates below from the last two radii. Proved: linear between radii, exact at grid radii, linear below, throws outside when extrapolation is not allowed, exact formula above. With every operation rounded: between later radii not negative and the line up to a factor near one (C56_rounded_between), at later radii two roundings away (C56_rounded_grid, C56_refuted_rounded); in the first interval a negative value comes out of values that are not negative (C56_refuted_rounded_first). Refutations: `C56_refuted_above`, `C56_refuted_zero`, `C56_refuted_initialize`, `C56_refuted_initialize_single`, `C56_refuted_gocode_below`, `C56_refuted_gocode_single`, `C56_refuted_gocode_empty`, `C56_refuted_rounded`, `C56_refuted_rounded_first`.
* **C57 Insertion order does not matter.** Refuted as stated: inserting a radius below the first misplaces it. Proved for every order that starts with the smallest radius. Refutations: `C57_refuted_below`, `C57_refuted_two`, `C57_refuted_order`.
* **C58 Clones of distributions evaluate identically.** Refuted as stated: the clone of a logarithmic table returns logarithms, and the clone of a distribution that forbids extrapolation allows it. Proved for linear tables, numeric distributions that allow extrapolation, GO+CODE, CODE, radial and analytical distributions. Refutations: `C58_refuted_extrapolation`, `C58_refuted_log`.
* **C60 CODE distributions do not depend on evaluation history.** Refuted as stated: after ToMomentumSpace an evaluation at the last evaluated pitch uses the Legendre values of another pitch. Proved for every history of evaluations, and for every history at any other pitch; at least two modes (fewer overrun the array, C61). Refutations: `C60_refuted_conversion`.
* **C61 Legendre modes are the Legendre polynomials.** Refuted as stated for 0 and 1 modes (writes outside the array). Proved for two or more modes; recursion, parity, value at 1 and bound by one for every degree over the reals. With every operation rounded, mode l is within 3((1+u)^4-1) l(l-1) of the polynomial for every rounding and every x in [-1,1] (C61_rounded; C61_double for up to ten million modes), so is the sum of the modes (C61_rounded_sum, C61_rounded_value); parity is exact (C61_rounded_parity); the value at one is not (C61_refuted_rounded). Refutations: `C61_refuted_rounded`, `C61_refuted_few`.
* **C62 Time index selection.** Refuted as stated for DREAM: the step just after the last is accepted and read past the end of the data. Proved for CODE and GO+CODE, and for DREAM at all other steps when the size does not overflow 64 bits. Refutations: `C62_refuted_dream`.
* **C63 Radial profiles are normalised cut-offs.** Refuted as stated: PowerRadialProfile accepts exponents that are not positive (zero profile, or infinite at the inner edge and negative inside). Proved: linear, Bessel (J0 as its power series, positive and strictly decreasing up to the constant of the code) and power with positive exponent are normalised cut-offs; the Gaussian is positive, cut off, bounded by its amplitude and decreasing away from its centre; exactly the invalid parameters are rejected. With every operation rounded the linear profile is still zero outside, one at the inner edge, between zero and one and does not increase (C63_rounded, C63_rounded_double). Refutations: `C63_refuted_power_zero`, `C63_refuted_power_negative`.
* **C64 Analytical momentum distributions are physical.** Refuted as stated: Connor-Hastie is increasing in |xi| exactly if D p >= 1/2, and divides by zero at xi = 0 or p = 0; the avalanche distribution divides by zero at p = 0. Proved: positive and even everywhere else for admissible parameters, avalanche strictly increasing, exponential pitch increasing exactly if C > 0. Both distributions are the documented formulas (C64_avalanche_formula, C64_connorHastie_formula). Refutations: `C64_refuted_avalanche_zero`, `C64_refuted_connorHastie`, `C64_refuted_connorHastie_zero`.
* **C65 Distribution files must have strictly increasing radii.** Refuted for the default argument (no magnetic field): null pointer dereferenced. With a field, proved for every grid of at most 2^30 radii for SOFT and DREAM, any length for GO+CODE; LUKE conversion included. What GSL requires of the momentum grids (C117) is not part of the acceptance here. C65_soft_shapes says which dimensions of a radius are accepted. Refutations: `C65_refuted_gocode_null`, `C65_refuted_null`.
* **C67 Compound assignment and output arguments tolerate aliasing.** Refuted as stated for scalars that are elements of the vector (v *= v[0]) and for Cross(a, b, a). Proved for all other aliasings. Refutations: `C67_refuted`, `C67_cross_refuted`.
* **C69 Integer multi-dimensional arrays in MAT files.** Refuted as stated: every integer multi-dimensional array throws (the function body is a throw) and integer lists get no MATLAB_class attribute. Proved for matrices of every number type and for multi-dimensional arrays of doubles. Refutations: `C69_refuted`.
* **C70 CODE interpolation objects fit their array.** Refuted as stated: the array of pointers is overrun exactly if there are more modes than momenta. Refutations: `C70_refuted`.
* **C72 Verification vectors detect every mismatch.** Refuted as stated: C72_refuted_special (exactly which pairs are accepted with infinities and NaN: a NaN in the vector or in the data agrees with everything, an infinite entry with every value). Proved for finite numbers: C72_verify (rows, exact arithmetic), C72_vector (rows and columns of any length, for any comparison; only the data are read), C72_vector_shape, C72_absent, C72_bad_shape, C72_rounded (rounding changes no verdict: with numbers of a binary format and tolerance 2^-p, accepted exactly if the exact relative difference is at most the tolerance). Overflow and underflow are left out. Refutations: `C72_refuted_special`.
* **C73 Loaded DREAM distributions can be destroyed.** Refuted as stated: with any step but the first an interior pointer is released (double build); correct exactly for step 0. Refutations: `C73_refuted_destroy`.
* **C74 Numeric data round-trips through HDF5 and MAT files.** Refuted as stated: the writers read the matrix as one contiguous block, so rows allocated separately are undefined behaviour. Proved for contiguous rows, all number types, both formats, and every later history of writes; lists, scalars and multi-dimensional arrays without restriction. Refutations: `C74_separate_rows_ub`, `C74_refuted`.
* **C75 Strings round-trip through HDF5 and MAT files.** Refuted as stated: strings come back cut at the first zero byte. C75_read_back_rule gives the exact string for every input; unchanged for strings without zero bytes. Refutations: `C75_refuted`.
* **C76 Reading from HDF5 and MAT files is memory safe.** Refuted as stated: variables of rank 3 or more (or rank 0) read as a matrix or list overrun the buffer or use wrong extents. C76_matrix_rule and C76_list_rule give the exact condition; multi-dimensional arrays and HDF5 strings are always safe. An attribute can be read as a number exactly when it is stored as one double (C76_attribute_iff); a string attribute read as a number is undefined (C76_refuted_attribute). Refutations: `C76_refuted`, `C76_refuted_attribute`.
* **C77 Failures of HDF5 and MAT files are reported by the library's exception.** Refuted as stated: HDF5 library exceptions escape from writes and attribute reads. Proved for reading of missing variables; all writers shown to throw the library's own exception instead. Refutations: `C77_refuted`.
* **C78 Attributes of different variables do not interfere.** Refuted as stated: MAT and SDT files store the attribute under a combined name, so different pairs collide. Proved for HDF5 in full, and for the other formats when the combined names differ. Refutations: `C78_refuted`.
* **C79 MAT files can be created at any time.** Refuted as stated: the month name is indexed with tm_mon-1, undefined in January and wrong in all other months. The layout of the header is proved for all dates from February on. Refutations: `C79_january_ub`, `C79_refuted`.
* **C80 Variables can be read as integers whatever their stored number type.** Refuted as stated: unsigned 64-bit values from 2^63 on are wrapped silently and matrices without rows are undefined. Proved for all values that fit, all number types; rejection of other variables proved. Refutations: `C80_no_rows_ub`, `C80_double_ub`, `C80_refuted`.
* **C82 Tokens and errors carry the position in the text.** Refuted as stated: words carry the position after the character that ends them (a word at the end of a line names the following line), newlines within strings are not counted, and tokens of an included file name the including file (C82_refuted_newline, C82_refuted_string, C82_refuted_include). Proved exactly for all texts without strings and included files whose comments are ended by a newline: every token stands in the text where it was read, in order, and the stored line and column are given by a rule in terms of that place (C82_positions_partial); the file rule and the agreement with the lexer without positions hold for every text. Refutations: `C82_refuted_newline`, `C82_refuted_string`, `C82_refuted_include`.
* **C84 Printed durations read back.** Refuted as stated: zero is written 0ms, not the documented 0s (C84_refuted_zero). Everything else is proved for all durations: C84_reads_back, C84_layout (exact text with hours as largest unit, which is what the tracker uses), C84_colours_only and C84_line_colours (whole line). Negative durations are out of scope. Refutations: `C84_refuted_zero`.
* **C85 The estimate of the remaining time is exact for regular runs.** Refuted as stated: shrinking durations are treated as constant (C85_refuted_shrinking), with concurrent calls the second line can be printed first, which uses the member dt1 before it is set (C85_refuted_concurrent), and a block that takes 40 days longer than the one before overflows 64 bits (C85_refuted_overflow). Proved: the exact value for every sequential run and every durations (C85_run, C85_estimate_exact, C85_first_estimate), hence exactness for constant (C85_constant) and growing progressions (C85_run_exact_partial), zero at the end (C85_last); the exact condition for overflow (C85_overflow_iff, C85_overflow_first), none for a million lines of up to three hours each (C85_no_overflow). Refutations: `C85_refuted_overflow`, `C85_refuted_shrinking`, `C85_refuted_concurrent`.
* **C86 Loading does not depend on the source of the text or on earlier loads.** Refuted as stated: the standard input is cut at a NUL, which can even turn a file that loads into an endless loop (C86_refuted_nul); a second load from the standard input writes through a null pointer (C86_refuted_stdin_twice); after a failed load with nested included files no file can be loaded (C86_refuted_leftover_name). Proved: history and source independence for all texts (C86_history_independent, C86_from_file, C86_sequence, C86_from_file_fails), the link to C06-C09 (C86_is_fromString), and the standard input for texts without NUL (C86_from_stdin_partial). Refutations: `C86_refuted_nul`, `C86_refuted_stdin_twice`, `C86_refuted_leftover_name`.
* **C87 Files keep what is written to them, in any order of use.** Refuted as stated: an SDT file opened for update is overwritten from its beginning (C87_refuted_sdt_update; exact contents in C87_sdt_update_exact); an SDT file that is missing or cannot be opened is not reported and writes to it vanish (C87_refuted_sdt_missing, C87_refuted_sdt_unwritable); an SDT object used for a second file still shows the variables of the first, and after a failed reading ignores the next file (C87_refuted_sdt_reuse, C87_refuted_sdt_after_error); closing an HDF5 or MAT object twice, or destroying it when no file was ever opened, is undefined (C87_refuted_close_twice, C87_refuted_destroy); a file left open is never closed (C87_refuted_handle_lost). Proved: complete write sessions of all formats store exactly what was written and touch nothing else (C87_sdt_session, C87_sdt_read_back, C87_h5_session, C87_h5_read), HDF5 and MAT updates keep everything not written and report failures (C87_h5_update, C87_h5_update_keeps, C87_h5_failure_reported), the exact rules for reuse and for undefined behaviour (C87_sdt_reuse, C87_sdt_safe, C87_h5_life_exact) and the dispatch of Create (C87_create). Refutations: `C87_refuted_sdt_update`, `C87_refuted_sdt_missing`, `C87_refuted_sdt_unwritable`, `C87_refuted_sdt_reuse`, `C87_refuted_sdt_after_error`, `C87_refuted_close_twice`, `C87_refuted_destroy`, `C87_refuted_handle_lost`.
* **C88 Numeric fields made from analytical ones agree with them.** Refuted as stated: the flux array is allocated and passed on without being filled, so that the flux of the numeric field is whatever the memory contained (C88_refuted_flux), and the domain an analytical field constructs makes the construction of both fields undefined (C88_refuted_domain, C46). Proved: agreement of the field in every grid point at a positive radius, at every angle, for all profiles and all grids of at least four by four points, assuming only that the splines reproduce the values at the grid points (C88_nodes_agree), which is proved for those of GSL in C123_node_exact; extent and spacing of the grid, axis, domain, names (C88_grid); the constructed domain is a regular polygon on the circle of the minor radius (C88_domain_circle). Refutations: `C88_refuted_flux`, `C88_refuted_domain`.
* **C89 A LUKE equilibrium is loaded as it is in the file.** Refuted as stated: when the first point of the last surface is at the height of the axis (table angles starting at 0), FindMaxRadius touches memory outside the arrays (C89_refuted_first_angle); beyond the last table angle the field is extrapolated instead of continued periodically (C89_refuted_periodic); a two-point wall in columns is read as rows (C89_refuted_two_points); a grid without vertical positions is undefined (C89_refuted_empty). Proved: exact loading of every other equilibrium (C89_load_partial), properties of the interpolation (C89_table_node, C89_reproduces, C89_bounded), rejection of everything else (C89_only_equilibria, C89_wall_rejected). Refutations: `C89_refuted_first_angle`, `C89_refuted_periodic`, `C89_refuted_two_points`, `C89_refuted_empty`.
* **C90 Accepted integration steps meet the tolerance.** Refuted as stated: a single component may exceed its tolerance by up to the square root of the number of components; with zero tolerance no step is ever accepted. Everything else is proved, in exact arithmetic, as long as the 32-bit counters do not overflow. Refutations: `C90_refuted_componentwise`.
* **C92 Distributions made from logarithms give their values back.** Refuted as stated: with a new array InsertMomentumSpaceDistributionLog (line 299) passes the values instead of the logarithms, so that the distribution is the exponential of the values; with a new array and two radii or more InitializeLog (line 202) computes with values that are not set yet; and with linear interpolation a positive value next to a zero reads zero (C92_refuted_zero). Proved for everything else: the nodes of a radius whose values are all positive have the values, nodes with a value that is not positive have zero. The assumptions on the spline are proved for the linear and the cubic interpolation of GSL (C124_reproduces). Refutations: `C92_refuted_zero`, `C92_refuted_alloc`, `C92_refuted_insert_alloc`.
* **C93 Smallest radius and vertical extent of a domain.** Refuted as stated: at the tips of a closed rhombus the vertical extent is a single height (two sides meet at the tip and only two crossings are looked at), and a side along the height of the axis contributes only its larger radius. Proved for contours of which at most two sides reach the height or radius and none lies along it (and, for the radii, first and last vertex strictly on one side). Refutations: `C93_refuted_tip`, `C93_refuted_side`.
* **C94 Remembered radii belong to the contour in use.** Refuted as stated: SetDomain with a domain around which the axis is not inside throws after replacing the domain and leaves the old radii; FindMaxRadius with a contour as argument replaces the remembered radii. Proved for all sequences without these two; before a domain is set the getters are undefined. Refutations: `C94_refuted_exception`, `C94_refuted_other_contour`.
* **C95 Setting an initial value starts afresh.** Refuted as stated: InitialValue does not reset the step-size control (optimal_step, errold, previous_step_rejected), so that the first step after a restart can be ten times the one of a new integrator. Proved: the points depend on the past only through these three members; with equal control the runs agree for every number of steps. Refutations: `C95_refuted`.
* **C96 Parameters of the step-size control.** Refuted as stated: the setters accept a smallest factor or safety factor of one or a negative exponent, with which a step is retried for ever; SetExponentBeta leaves alpha. Proved: the range for sensible parameters, and that rejections always end exactly for safe < 1, alpha >= 0 and minscale < 1 (safe > 0). C96_memory says which error is remembered. Refutations: `C96_refuted_setters`, `C96_refuted_beta`.
* **C97 Dense output can be switched on and off.** Refuted as stated: for steps taken without dense output the arrays hold what was there before, for instance values of an earlier run; without any coefficients the arrays are null and reading them is undefined. Proved: requests in steps taken with dense output get the polynomial that joins the stored points, whatever happens in other steps. Refutations: `C97_refuted`.
* **C98 Numeric fields release what they own once.** Refuted as stated: the destructor releases neither the flux array nor the GSL objects nor the arrays of empty contours, so at least five blocks per field are lost (C98_refuted_leak), and an array given as both wall and separatrix is released twice (C98_refuted_shared). Proved for every careful program of any length: no undefined behaviour, every block in exactly one place, and the exact number of lost blocks (C98_ownership_partial, C98_balance, C98_destroy_iff). C98_clone_iff and C98_query_iff say exactly which fields can be cloned and evaluated. Refutations: `C98_refuted_leak`, `C98_refuted_shared`.
* **C99 3D wall intersection raises no false alarms.** Refuted as stated: the position along the tile is never checked, so that a segment crossing the cone of a tile beyond its ends is reported (C99_refuted_beyond), and a segment as steep as a tile is always reported (C99_refuted_vertical). Proved: what is reported, exactly, for every wall and segment (C99_exact); for level segments the report is right (C99_level_partial). Refutations: `C99_refuted_vertical`, `C99_refuted_beyond`.
* **C100 Field files with arrays that do not fit the grid are rejected.** Refuted as stated: the second dimension is never checked, so that a component with a column too few is read outside of its array (C100_refuted_outside), three numbers are accepted for a grid of four points and surplus columns are dropped (C100_refuted_scrambled). Proved: for every grid, every shape and every content, exactly when the reading is undefined, exactly when it succeeds, and which entry is used at each point (C100_load_partial, C100_component, C100_contour); the two shapes that are meant are read rightly (C100_meant). Refutations: `C100_refuted_outside`, `C100_refuted_scrambled`.
* **C101 Opening an SDT file of any contents is safe.** Refuted as stated: a matrix without rows is undefined (C101_refuted_no_rows), the number of elements is computed modulo 2^64 so that two rows of 2^63 numbers are written into an empty array (C101_refuted_overflow), and a negative or huge size ends in std::bad_alloc (C101_refuted_allocation). Proved for every text, number format and allocator: exactly when opening is undefined (C101_undefined_iff), exactly when memory runs out (C101_starved_iff), exactly when it succeeds (C101_opens_iff), nothing is misread (C101_not_misread), and files whose matrices have a row and fit in 64 bits are safe (C101_safe_partial). Refutations: `C101_undefined_iff`, `C101_refuted_no_rows`, `C101_refuted_overflow`, `C101_refuted_allocation`.
* **C102 The values of a file setting are released exactly once.** Refuted as stated: the class has the copy constructor of the compiler, so an object and its copy release the same list (C102_refuted_copied_object), and setting the list already held releases it and keeps it (C102_refuted_same_list). Proved for every program of any length that hands each list over once and uses Copy: nothing undefined, every list in exactly one place (C102_ownership_partial), nothing left at the end (C102_nothing_left), exceptions lose nothing and change nothing (C102_overwrite_loses_nothing, C102_step), and the exact values after each operation (C102_values, C102_copy). Refutations: `C102_refuted_copied_object`, `C102_refuted_same_list`.
* **C103 Loading configuration scripts loses no objects.** Refuted as stated: the destructor releases nothing and every load loses the tree held before, so more than n objects remain after n loads of any kind (C103_refuted_destroyed, C103_refuted_reload), and a document that leaves a block open loses its tokens and all that was made (C103_refuted_unclosed). Proved for every stream: no setting is ever lost by the interpreter (C103_settings), accepted streams make one block per '{' and one setting per '=' (C103_made, C103_document), documents that define nothing twice lose nothing (C103_distinct_document_partial), and the exact balance for every history of loads (C103_balance_partial). Texts refused by the lexer are not covered. Refutations: `C103_refuted_reload`, `C103_refuted_destroyed`, `C103_refuted_unclosed`.
* **C104 CODE and GO+CODE distributions release what they own once.** Refuted as stated: the destructor leaves three blocks for each distribution loaded and one for each clone, exactly (C104_refuted_leak); Destroy on one of two objects with the same array makes evaluating or destroying the other undefined (C104_refuted_clone, C104_refuted_clone_all for every size); an unknown interpolation type throws and leaves an object that cannot be destroyed (C104_refuted_unknown); loading twice loses the first (C104_refuted_reload); a GO+CODE distribution releases one block only, and cannot be destroyed before it was loaded (C104_refuted_gocode, C104_refuted_gocode_new). Proved for every sequence of operations that looks at who shares what: nothing is released twice or used after release (C104_careful_partial); without clones and with Destroy first, everything is released exactly once (C104_tidy_partial). Refutations: `C104_refuted_leak`, `C104_refuted_clone`, `C104_refuted_clone_all`, `C104_refuted_unknown`, `C104_refuted_gocode`, `C104_refuted_gocode_new`, `C104_refuted_reload`.
* **C106 Positions that are not numbers are not taken for positions.** Refuted as stated: C106_refuted. What is computed, for every wall, table and parameter: CrossesDomain says `not crossed` as soon as a coordinate is NaN or infinite (C106_crosses), and so does IntersectsDomain3D for NaN (C106_intersects); the colour of a value that is NaN or infinite is undefined behaviour (C106_colour); a power profile with exponent zero is 0 at NaN (C106_profile) and a logarithmic table is 0 (C106_table). The constructors of the profiles accept bounds that are NaN (C106_constructors_accept). C106_partial: the fields, the other profiles, the tabulated distributions, the other tables (and CODE, C106_code) are NaN. The C106_*_finite theorems say that on numbers the functions are those of the other claims. The splines and the Bessel function of GSL are assumed to give NaN for NaN; the sign of zero is not modelled. Refutations: `C106_refuted`.
* **C107 Results of field evaluations stay what they are.** Refuted as stated: C107_refuted (EvalDerivatives of a numerical field overwrites the vector returned by Eval; a copied result shares the Jacobian with the object, so that it changes with the next evaluation and dangles after destruction). Proved for every program: C107_vector, C107_derivatives, C107_flux (exactly which later operations matter for each result), C107_copy (for copies), and what is shown afterwards: C107_vector_overwritten (also by ToNumeric2D), C107_copy_overwritten, C107_destroyed (undefined; the Jacobian of an analytical field is never released). Released memory is not used again in the model. Refutations: `C107_refuted`.
* **C108 Pointers into the history of an integration stay valid.** Refuted as stated: C108_refuted (the pointer to the initial value can be used during 999 steps; one more step reallocates the array and, if the allocator moves it, the pointer dangles). Proved for every history: C108_pointer (valid with the same contents during every number of steps that fits into the memory allocated so far, and for ever if no reallocation moves), C108_room (that memory: after m steps the next multiple of 1000 above m), C108_moved (after a move the old pointers are undefined for ever), C108_restart (what old pointers show after a new initial value: new entries first, the old ones behind them), C108_fresh, C108_last (pointers obtained anew always show the entries of the present run). Released memory is not used again in the model. Refutations: `C108_refuted`.
* **C109 Pointers to settings and blocks stay valid.** Refuted as stated: C109_refuted (giving a block a setting it already has deletes that setting; the pointer returned and the one kept dangle). Proved for every history that takes two precautions: C109_settings_partial, C109_blocks_partial (the same object for the name, live), C109_shows (an earlier pointer shows the values of a new definition), C109_calls_partial (no call but a destruction is undefined), C109_released (exactly what each call releases). The precautions are shown to be necessary: C109_add_iff, C109_destroy_iff. Settings of scripts only; that destruction itself is not a double free is C15. Refutations: `C109_refuted`.
* **C110 Distributions in the old SOFT format load as stored.** Refuted as stated: C110_refuted_wrap (the products of the numbers of grid points are 32-bit: 65536 momenta and 65537 pitches pass with 65536 values, and the verification reads outside them), C110_refuted_empty (empty grid), C110_refuted_radii and C110_refuted_values (the distribution made from a file lacks the first radius: values appear one radius too far out). Proved for every file with non-empty grids whose number of values fits into 32 bits, with rounding: C110_load_partial (loaded exactly if complete, verified and with a known unit; the contents), C110_safe_partial (no undefined behaviour, everything else is an exception), C110_momentum_partial (the values of one radius). Build with double. Refutations: `C110_refuted_radii`, `C110_refuted_values`, `C110_refuted_wrap`, `C110_refuted_empty`, `C110_refuted_slice`.
* **C111 LUKE distributions load as stored.** Refuted as stated: C111_refuted_radii (the distribution made from a file lacks the first radius), C111_refuted_rounded and C111_refuted_collapse (different radii can coincide after the mapping, and the file is then rejected; radius 1 need not become the largest radius), C111_refuted_truncated (a grid of 2^32+1 radii counts as one), C111_refuted_field (null field). Proved for every file with fewer than 2^32 points in each grid, with rounding: C111_load_partial (loaded exactly if complete; the contents), C111_safe_partial (no undefined behaviour, everything else is an exception), C111_radii (radius 0 is the axis, order kept), C111_radius_error (bound of the rounding error of a radius), C111_momentum_partial (values of one radius, if their total number fits into 32 bits). Build with double. Refutations: `C111_refuted_radii`, `C111_refuted_rounded`, `C111_refuted_collapse`, `C111_refuted_truncated`, `C111_refuted_field`.
* **C112 DREAM output is read on the momentum grid of the named distribution.** Refuted as stated: C112_refuted (std::out_of_range instead of SOFTLibException, exactly for existing full paths of at most four characters), C112_refuted_ending (only the ending is compared: ref_re is read on the runaway grid). Proved for every name and file: C112_auto (no name given), C112_named (accepted exactly if the variable exists and its name ends in f_re or f_hot, with the grid of that ending). Refutations: `C112_refuted`, `C112_refuted_ending`.
* **C113 Readers of distributions release what they allocate, as it was allocated.** Refuted as stated: C113_refuted_soft (every SOFT file with a radius: the array of rows of f, made by new[], is released by delete, which is undefined), C113_refuted_leak (a LUKE file with three radii leaves 22 blocks). Proved exactly, for every number of radii and every place of an exception: C113_luke, C113_depr, C113_dream_partial (no undefined release; which blocks are left after loading and destroying; the file object is left after every exception), C113_luke_momentum, C113_depr_momentum. DREAM for the first time step only: for the others the release is undefined (C73). Refutations: `C113_refuted_soft`, `C113_refuted_leak`, `C113_refuted_size`.
* **C115 Loaded distributions have the stored values at the stored nodes.** Refuted as stated: a file whose first radius lies at major radius zero is accepted and evaluation there divides by zero (C115_refuted_zero); LUKE and old SOFT files are refuted under C110 and C111. Proved for SOFT and DREAM files with at least two radii whose first radius is not at zero (C115_soft_partial, C115_dream_partial, C115_soft_between_partial), for one radius away from position zero (C115_soft_one). The tables are assumed to be accepted by GSL; the assumption on the spline is proved for the linear and the cubic interpolation of GSL (C124_table_exact). Refutations: `C115_refuted_zero`.
* **C116 Error messages show the texts and numbers they are given.** Refuted as stated: 32-bit numbers for %llu and 64-bit numbers for %u (C116_refuted_sizes), unsigned numbers above 2147483647 for %d (C116_refuted_sign), file names with percent signs inside a format (C116_refuted_filename, exactly then by C116_filename_iff), messages of 1000 characters (C31). Proved for all other places and all arguments (C116_sites_partial, C116_exception_partial), and for any template and arguments (C116_formatted, C116_mismatch); the text of a whole number reads back as the number (C116_integers). Refutations: `C116_refuted_sign`, `C116_refuted_sizes`, `C116_refuted_filename`.
* **C117 Linear interpolation keeps the stored values and stays between them.** Refuted as stated: in a logarithmic table a node whose neighbour is zero reads zero, whatever is stored there (C117_refuted_log; exactly what happens in each cell is C117_log_cell), and grids with ends in order that are not increasing, or with one point, abort the program instead of throwing (C117_refuted_abort, C117_outcomes). Proved for the rest: C117_cell (in every cell that contains the point), C117_between, C117_bounds, C117_node, C117_log_node_partial, and that the assumptions on the spline in C92 and C115 hold for linear interpolation (C117_reproduces, C117_table_exact). Refutations: `C117_refuted_log`, `C117_refuted_abort`.
* **C118 Distributions made from non-negative values are not negative.** Refuted as stated: extrapolation beyond the first and the last radius, which the readers always allow, gives negative values (C118_refuted_extrapolation). Proved between the first and the last radius (C118_inside_partial, C118_soft_partial), and exactly when the extrapolated values are non-negative (C118_below_iff, C118_above_iff). Refutations: `C118_refuted_extrapolation`.
* **C119 Numeric fields report what they cannot do.** Refuted as stated: grids with fewer than four points in a direction, or that do not increase, end the program (C119_refuted_grid, C119_file, C119_luke, C119_convert), and so does asking for the flux outside of the grid (C119_refuted_flux), where the field itself is given. Arrays that are too short are read beyond their end (C119_refuted_short). Proved: exactly which grids are accepted, and that the field and its derivatives are given everywhere (C119_outcomes, C119_constructor, C119_field, C119_flux_partial). Refutations: `C119_refuted_grid`, `C119_refuted_short`, `C119_refuted_flux`.
* **C120 CODE distributions load as stored.** Refuted as stated: files whose momenta do not increase, or with too few of them, end the program (C120_refuted_order, C120_outcomes), a single mode is read beyond its end when evaluated (C120_refuted_single), more modes than momenta write beyond an array (C120_outcomes), and a temperature that is not positive gives values that are no numbers (C120_refuted_temperature). Proved: exactly which files are loaded (C120_outcomes, C120_only, C120_time), and of these with two modes or more the value is that stated, cut off below at zero, everywhere with linear interpolation (C120_linear_partial) and at the stored momenta with any interpolation that passes through them (C120_nodes_partial). Refutations: `C120_refuted_order`, `C120_refuted_single`, `C120_refuted_temperature`.
* **C121 GO+CODE distributions load as stored.** Refuted as stated: outside of the radii, also below the first one, the value is made of the last two distributions with a wrong slope (C121_outside_exact); one radius is undefined (C121_refuted_single); a first radius at zero gives no numbers up to the second (C121_refuted_zero); momenta that do not increase end the program (C121_refuted_order). Proved: the value between the first and the last radius after any history, for the object and its clones (C121_values_partial; with every other type of interpolation C121_modes_partial and C121_nodes), and what files are loaded (C121_only, C120_only). Refutations: `C121_refuted_single`, `C121_refuted_zero`, `C121_refuted_order`.
* **C124 Tables with cubic interpolation keep the stored values, are smooth, and are not negative.** Refuted as stated: in a logarithmic table a single zero makes the whole distribution zero, at every point (C124_refuted_zero; the NaN spreads over all cells, C124_spreads), and plain non-negative tables give negative values between the nodes (C124_refuted_negative). Proved for the rest: stored values at the nodes and differentiability (C124_table_partial), stored values and positive values for logarithms of positive values (C124_log_partial), never infinite (C124_finite), equal to the interpolation of fields of C123 (C124_numbers). The assumptions on the spline in C92 and C115 hold for linear and for cubic interpolation (C124_reproduces, C124_table_exact). Refutations: `C124_refuted_zero`, `C124_refuted_negative`.
* **C125 Modes of CODE distributions are interpolated through the stored values, between them and smoothly.** Refuted as stated: linear and Akima interpolation have corners (C125_refuted_linear, C125_refuted_akima), cubic splines and polynomials leave the range of the stored values and become negative (C125_refuted_between), and a plain table keeps negative sums where the distribution is zero (C125_convert_partial gives both values). Proved for the rest: stored values with every type (C125_nodes, C125_file_partial), the value at every other momentum as the positive part of the sum of the interpolated modes (C125_values), the cubic spline twice differentiable with vanishing curvature at the ends (C125_spline), the periodic one twice differentiable with equal curvatures at both ends, and equal slopes unless there are three momenta with different end values (C125_periodic), Steffen's interpolation and polynomials differentiable (C125_steffen_smooth, C125_polynomial_smooth), Steffen's between the neighbours (C125_steffen_between; linear: C120_linear_partial), conversion (C125_convert_partial, C125_convert_log_partial). This discharges the assumption on the interpolation in C120_nodes_partial. Reproduction: Akima's interpolation of a parabola on an equally spaced grid is that parabola, ends included (C125_akima_parabola); the periodic one has the same slope at both ends (C125_akima_periodic); Steffen's has the slope of the parabola through three neighbours where it is not limited (C125_steffen_parabola) and of the first interval at the first node (C125_steffen_first). Refutations: `C125_refuted_akima`, `C125_refuted_linear`, `C125_refuted_between`.
* **C126 Linear interpolation in floating point keeps stored values and bounds.** Refuted as stated: in double a table of ones yields 1 + 2^-52 and 1 - 2^-53 (C126_refuted_between), and in the first radial interval tables of zeros and ones yield a negative number (C126_refuted_first). Proved for every rounding: the stored value at every node (C126_node), never negative (C126_nonneg), between the stored values up to seven roundings (C126_between_partial), the same on both sides of a border (C126_border), an error of at most 20 * 2^-53 of the largest value for double (C126_error, C126_error_double), and the bounds between two radii after the first interval (C126_dist_partial). Without rounding the model is that of C117 (C126_exact). Overflow, underflow and logarithmic tables are left out. Refutations: `C126_refuted_between`, `C126_refuted_first`.
* **C127 Including a file is writing its contents in place.** Refuted as stated: a file cannot stand for a value (C127_refuted_value), the last character of a comment at the end of an included file becomes a word (C127_refuted_comment), a string left open in a file goes on in the including text (C127_refuted_string), and names with # or two blanks cannot be included (C127_refuted_name). Proved for every nesting of files, wherever the words before a mark do not end with =, a value or a block type and included files end outside strings and comments (Expands): the same outcome of the lexer (C127_in_place_partial) and of loading (C127_load_partial), termination (C127_terminates), the exception for a missing file (C127_missing). Wherever a mark stands, the tokens of the file read by itself are inserted (C127_inserted). The depth admitted by the model has no influence once it suffices (C127_depth). Refutations: `C127_refuted_value`, `C127_refuted_comment`, `C127_refuted_string`, `C127_refuted_name`.
* **C128 Several threads may ask one magnetic field about its radii and its domain.** Refuted as stated: two threads calling GetDomainBounds on any field whose bounds are not known reach a data race (C128_refuted_race); on a new field a thread can get the smallest radius from GetMaxRadius while another computes them (C128_refuted_value), also when they were known and a thread calls FindMaxRadius (C128_refuted_again). Proved for every number of threads and every interleaving: with everything known the getters write nothing, do not race and are right (C128_warm_partial); with accesses in one order for all threads, bounds are always right (C128_bounds_partial), radii are right or the first crossing (C128_radii_partial), and what is remembered when no call is in progress is right (C128_settled_partial). A thread alone always gets the right answers (C128_alone). Ended calls leave their answers behind (C128_remembered_partial); no call is lost (C128_calls) and each ends after at most 17 steps of its own thread (C128_ends); without a crossing every call for a radius throws (C128_not_inside). Refutations: `C128_refuted_race`, `C128_refuted_value`, `C128_refuted_again`.
* **C129 Saving an image gives a complete file or an exception and releases what it used.** Refuted as stated: every call with a known format leaves both built-in colour maps allocated, however it ends (C129_refuted_leak), so memory grows with the number of calls (C129_refuted_grows); an exception of libpng leaves the file open and the generator allocated (C129_refuted_handle); a PPM file that cannot be written and the last bytes of a PNG file are not reported (C129_refuted_silent, C129_refuted_flush); the default colour map is the null pointer, undefined for every image with a pixel (C129_refuted_default). Proved: exactly what is live after every way a call can end (C129_live, C129_png, C129_png_exceptions); a call that returns has released the generator, the file and everything of libpng (C129_released_partial); it has written the complete file if the file could be written (C129_complete_partial); exactly when it is undefined and which exceptions arguments cause (C129_outcomes). Refutations: `C129_refuted_leak`, `C129_refuted_handle`, `C129_refuted_silent`, `C129_refuted_flush`, `C129_refuted_default`, `C129_refuted_grows`.
* **C130 Readers of magnetic fields release what they allocate.** Refuted as stated: every load that does not end at once leaves the file object and, if it succeeds, the objects of GSL (C130_numeric, C130_refuted_leak); exceptions leave everything allocated so far (C130_refuted_exceptions, C130_refuted_no_contour); every exception while a LUKE equilibrium is read makes the destructor of the base part read the uninitialised nwall (C130_refuted_luke_destructor); loading again leaves the arrays of the load before (C130_refuted_reload); saving leaves the file object (C130_refuted_save). Proved: nothing is released twice or wrongly, and exactly which blocks are left after loading and destroying, for every file (C130_numeric, C130_numeric_made, C130_luke, C130_luke_wall) and after saving (C130_save). Refutations: `C130_refuted_no_contour`, `C130_refuted_leak`, `C130_refuted_exceptions`, `C130_refuted_luke_destructor`, `C130_refuted_save`, `C130_refuted_reload`.
* **C131 Vector operations mean the same for integer and complex elements.** Refuted as stated: the reciprocal 1.0/s is converted to the element type, so dividing an integer vector by anything but 1 and -1 gives the zero vector (C131_refuted_divide, C131_refuted_quotient) and Normalize does the same to every integer vector of length two or more (C131_normalize, C131_refuted_normalize); Dot does not conjugate, so for complex elements it is the squared norm if and only if all elements are real (C131_complex_square, C131_refuted_complex); whether Dot of integer vectors overflows depends on the order (C131_refuted_dot). Proved: the exact outcome of the remaining divisions (C131_divide_one, C131_divide_minus_one, C131_divide_zero), of Norm (C131_norm, C131_norm_bounds), sums, products and scalar products of integers (C131_add, C131_multiply, C131_dot, C131_dot_sound), of conversions (C131_convert, C131_convert_part, C131_round_trip), and Norm, Normalize and Dot for complex elements (C131_complex_norm, C131_complex_normalize, C131_complex_dot). Refutations: `C131_refuted_divide`, `C131_refuted_quotient`, `C131_refuted_normalize`, `C131_refuted_dot`, `C131_refuted_complex`.
* **C132 Integers round-trip through SDT files.** Refuted as stated: 2^53+1 comes back as 2^53, INT64_MAX and UINT64_MAX lead to undefined behaviour (C132_refuted); reading a negative number as unsigned does as well (C132_refuted_negative); arrays with one column cannot be read as lists, others are read as their first elements (C132_refuted_shapes). Proved: what a file of integers holds when opened (C132_load); 32-bit integers are always kept (C132_value_32, C132_arrays_partial); 64-bit integers come back as the nearest double, except for the largest 512 or 1024, and unchanged if and only if they are doubles (C132_value_64, C132_value_iff); the same for whole arrays and lists (C132_arrays, C132_lists). A stored number is read exactly when it fits the type (C132_fits), a missing name is an exception (C132_missing). Refutations: `C132_refuted_negative`, `C132_refuted_shapes`, `C132_refuted`.
* **C133 Floating point numbers round-trip through SDT files.** Refuted as stated: 1234567 comes back as 1234570 (C133_refuted); different numbers come back as the same (C133_refuted_grid); a file with an infinite number or one that is not a number cannot be opened at all (C133_refuted_nonfinite). Proved: the text of each finite number is read as the floating point number nearest to the closest decimal of six digits (C133_text, C133_nearest), so files open exactly if all numbers are finite (C133_opens_iff) and hold those numbers (C133_load); the error is at most 5.1 millionths (C133_error), the order is kept (C133_order), a number comes back unchanged exactly if it is the nearest one to a decimal of six digits (C133_same_iff, C133_whole), and from then on nothing changes: writing again what was read gives the same file (C133_stable, C133_rewrite). The reader meets the assumptions of C132 (C133_reads_integers) and, for the numbers that come back, those of C21 (C133_exact_iff). Refutations: `C133_refuted`, `C133_refuted_grid`, `C133_refuted_nonfinite`.
* **C134 The domain of an analytical field is its plasma.** Refuted as stated: the magnetic axis itself is reported to be outside (C134_refuted_axis, with rounding C134_refuted_axis_rounded), and so is every point whose direction from the axis is that of a side, with fifty points all points straight above and below the axis, however close (C134_refuted_direction, C134_refuted_directions); between every side and the circle there is a part of the plasma that is reported to be outside (C134_refuted_sliver). Proved: exactly which paths from inside (C134_exact) and which points (C134_point) are reported; points and paths out of the plasma are always reported (C134_outside), so are paths back (C134_back), all other points within the inscribed circle are reported to be inside (C134_inside_partial). Refutations: `C134_refuted_axis`, `C134_refuted_axis_rounded`, `C134_refuted_direction`, `C134_refuted_directions`, `C134_refuted_sliver`.
* **C135 Integrators can be copied and destroyed.** Refuted as stated: the arrays are never released (C135_refuted_leak, C135_refuted_destroyed); a step stored in a copy replaces the one of the original (C135_refuted_overwritten, C135_refuted); the copy of a full integrator is left with an array that has been released (C135_refuted_released, C135_refuted_undefined). Proved: if copies are made only of integrators that have stored nothing, everything is defined and every integrator holds its own history (C135_careful_partial), exactly how much is left in memory (C135_left), and a copy that is only read shows what the original held for as long as the original has room (C135_reader_partial). Refutations: `C135_refuted_leak`, `C135_refuted_overwritten`, `C135_refuted_released`, `C135_refuted`, `C135_refuted_undefined`, `C135_refuted_destroyed`.
* **C136 Integrators report calls that come out of order.** Refuted as stated: no call that cannot be answered is reported, dense output apart: it is undefined, or gives 0 (LastTime), or a point of an earlier integration (C136_refuted, C136_refuted_first, C136_refuted_earlier); dense output with fewer than two points is undefined or made of the coefficients of an earlier integration, and reported only if a time is beyond its second point (C136_refuted_dense). Proved: exactly which calls are undefined after any sequence of calls (C136_exact, C136_exact_dense); if every call can be answered when it is made, nothing is undefined and all answers belong to the present integration (C136_in_order_partial). Refutations: `C136_refuted`, `C136_refuted_dense`, `C136_refuted_first`, `C136_refuted_earlier`, `C136_refuted_off`.
* **C138 The analytical magnetic field is accurate in floating point.** Refuted as stated: near the magnetic axis the vertical component can be computed as zero when it is not, whatever hypot does (C138_refuted), because the distance to the axis cancels. Proved instead: the error of the vertical component relative to the size of what cancels (C138_vertical), of the horizontal components (C138_horizontal), of the whole vector relative to its length times an explicit amplification factor (C138_relative, 32 units for constant profiles in C138_constant, the linear profile in C138_linear), and of the strength, relative to its toroidal part times the same factor (C138_strength); accurate_library: libraries of any accuracy exist. Refutations: `C138_refuted`.
* **C140 Questions about a configuration block agree with each other and with its contents.** Refuted as stated: == compares type and name only (C140_refuted_equality), copies forget what was read (C140_refuted_copy), and a setting without values is there but asking for it throws std::out_of_range (C140_refuted_no_values). All other answers agree (C140_settings, C140_value, C140_last_written, C140_sub_blocks, C140_found, C140_types, C140_untouched, C140_equality, C140_copy). Refutations: `C140_refuted_equality`, `C140_refuted_copy`, `C140_refuted_no_values`.
* **C142 The analytical distribution functions are accurate in floating point.** Refuted as stated: 1 - exp(-2A) cancels for small A, so that at an effective charge of 2^60 the avalanche distribution divides by zero (C142_refuted_small), and 1 - xi*xi cancels for xi near 1, so that the Connor-Hastie distribution is a million times less accurate than that at p = 2^40 (C142_refuted_pitch, for every accurate library). What holds: C142_pitch (as stated), C142_avalanche (200 units times 1 + exponent + 1/A, while 200 u (1 + 1/A) <= 1), C142_hastie (40 units times 1 + D p / |xi| + the cut-off exponent), C142_radial, C142_relative (from logarithms to relative errors). Exponents of numbers are not limited. Refutations: `C142_refuted_small`, `C142_refuted_pitch`.
* **C149 Numbers of particles and mean pitch of the analytical distributions.** Refuted as stated: C149_refuted shows that for an accelerating field there are always more particles than that, up to twice as many (the factor belongs to exp(-A (1 - xi)), the code has exp(-A (1 - |xi|))). Proved: C149_number_partial has the exact number, with the additional factor 2 / (1 + exp(-A)); C149_forward_partial the number over one direction; C149_mean_pitch, C149_expPitch and C149_no_current the rest of the statement. Refutations: `C149_refuted`.
* **C150 Field lines of the analytical field wind around the torus with the safety factor.** Refuted as stated: C150_refuted shows that off the magnetic axis each line goes around more often than q(r). Proved: C150_lines gives the lines explicitly (their tangent is the field everywhere), C150_through that one goes through every point, C150_turns_partial that they go around exactly q / sqrt(1 - (r/Rm)^2) times, in the stated direction, and C150_close_partial that this exceeds q by at most the fraction (r/Rm)^2 up to half way out. Refutations: `C150_refuted`.
* **C151 The flux reported by the analytical field is the poloidal flux of the field.** Refuted as stated: C151_refuted shows that with a linear safety factor the reported flux pi B0 r^2 / q is not the flux of the field at any point off the magnetic axis. Proved: C151_factor_partial has the exact ratio 1 - (r dq/dr) / (2 q), C151_exact_iff that off the magnetic axis the identity holds exactly where dq/dr = 0, C151_constant_partial that it holds everywhere for a constant safety factor, C151_flux_of_field what the flux would have to be. Refutations: `C151_refuted`.
* **C152 The current profile of the analytical field gives the current density it stands for.** Refuted as stated: C152_refuted shows a current at the edge, against the direction of the plasma current on the outside. Proved: C152_density_partial has the exact density, with the additional part sigma_I B0 (Rm - R) / (R^2 q), and C152_middle_partial that the statement holds where R = Rm. That the reported curl is that of the field is C48. Refutations: `C152_refuted`.
* **C153 The answers of the wall tests do not depend on how the step is taken or the wall is listed.** Refuted as stated: C153_refuted_back (CrossesDomain does not report a step from the first vertex but reports the way back), C153_refuted_parts (CrossesDomain takes the curved poloidal path as straight, so a half is reported and the whole is not), C153_refuted_space (IntersectsDomain3D reports the whole and neither half). Proved: C153_back_space, C153_listed_space, C153_turned_space and C153_turned without restriction; C153_back_partial and C153_listed_partial away from the first and last vertex; C153_parts_partial for division in the poloidal plane; C153_part_space, C153_parts_space_partial and C153_level_space_partial for division in space. Refutations: `C153_refuted_back`, `C153_refuted_parts`, `C153_refuted_space`.
* **C156 Nothing leaves a wall unnoticed.** Refuted as stated: IntersectsDomain3D lets particles out through horizontal sides (C156_refuted_space: a rectangle). Proved for CrossesDomain without exception: C156_step, C156_run for any number of steps; C156_convex, C156_convex_step: walls that turn left at every corner enclose what is on the left of all sides. C156_space_partial, C156_convex_space_partial: IntersectsDomain3D for walls without horizontal sides. C156_closed_needed: the first vertex has to be repeated for CrossesDomain. Refutations: `C156_refuted_space`.
* **C157 Decaying quantities decay, growing ones grow, oscillations keep their amplitude.** Refuted as stated: C157_refuted_decay (a step accepted with a large tolerance makes a decaying quantity more than three times as large), C157_refuted_amplitude (amplitudes change). Proved: C157_gain and C157_amplitude, the exact factors of each step; C157_sign and C157_growth without exception; C157_decay_partial for a h at most 3.3, C157_long_steps: never for a h of 3.4 or more; C157_amplitude_changes: oscillations are damped by steps with w h at most 0.99 and pumped by steps with w h of 1 or more; C157_amplitude_bound_partial: the loss up to the time t is at most the part w^6 H^5 t / 1800 of the square of the amplitude. Refutations: `C157_refuted_decay`, `C157_refuted_amplitude`.
* **C161 Memory of tabulated momentum distributions.** Refuted as stated: the class has no destructor and releases nothing. C161_refuted (when all objects are destroyed everything ever allocated is lost), C161_refuted_one, C161_refuted_again (initialising again loses what was held). C161_exact counts what is allocated by any program. The other parts hold: C161_eval_partial, C161_separate_partial. Limit: C161_clone_needs_arrays (after the caller has released the arrays an object can be evaluated but not cloned). Refutations: `C161_refuted`, `C161_refuted_one`, `C161_refuted_again`.

Found while reading, not tied to a property: `ImageGenerator` uses a null colour map
unless one is set; `SaveImage` ignores a file that cannot be opened;
`NumericDistributionFunction::InitializeLog`/`InsertLog` with `alloc` use the wrong
arrays; `MagneticFieldNumeric2D` made by `ToNumeric2D` has a flux array that is never
filled; the number of time steps of
a DREAM file is never compared with the first dimension of its data.

## Logical principles used by each property theorem

* none (8): C27_refuted, C28_refuted, C29_refuted, C30_refuted, C31_formatting_fails, C70_refuted, C83_no_errors_iff, C85_refuted_overflow
* propext (28): C05_word_kind, C12_refuted, C20_numeric_vector_rejects, C20_text_vector, C20_elements, C20_refuted, C20_other_type, C24_refuted, C24_column_vectors_rejected, C25_zero_extent, C72_vector_shape, C76_string_safe, C77_missing_variable_partial, C77_missing_attribute_throws, C78_names_partial, C80_not_a_number, C85_last, C85_refuted_shrinking, C85_refuted_concurrent, C104_refuted_gocode_new, C104_refuted_reload, C104_dead, C108_last, C109_shows, C109_add_iff, C109_refuted, C116_verbatim, C131_refuted_dot
* propext, Quot.sound (128): C13_null_iff_all_known, C16_copied_parents_point_to_original, C16_refuted, C18_blanks, C18_int32, C18_int64, C18_unsigned_rule, C18_unsigned_partial, C18_every_integer_written, C20_overwrite_others_exact, C20_numeric_vector_partial, C20_int32_elements, C20_integer_elements, C20_overwrite_doubles_partial, C20_overwrite_same_type_partial, C20_overwrite_strings_repeat_first, C20_overwrite_truncates_reals, C20_copy_partial, C22_integers_exact, C25_row_major_partial, C25_positions_in_range, C25_positions_distinct, C25_refuted, C27_lines_partial, C27_number_of_lines, C27_evenly_spaced, C28_undisturbed_partial, C28_counters_in_range_partial, C29_exact, C29_below_a_day_partial, C29_wrong_from_a_day, C29_text, C30_running_time_partial, C30_every_history, C31_exact, C31_short_partial, C31_refuted, C32_add_sub, C32_scalar_ops, C32_neg, C32_cross, C33_elementwise_partial, C33_construction, C33_scalar_actual, C33_neg_in_place, C33_mul_assign_out_of_bounds, C41_ppm_partial, C41_refuted, C55_gocode_search, C55_refuted_single, C55_empty, C56_outside_throws, C56_refuted_initialize_single, C56_refuted_gocode_single, C56_refuted_gocode_empty, C58_gocode, C62_code, C62_dream_partial, C62_refuted_dream, C62_dream_data, C65_wrong_type, C65_refuted_gocode_null, C65_soft_shapes, C65_luke_ends, C66_parts_add_up, C67_vector_compound, C67_scalar_compound_partial, C67_fill, C67_cross_output, C70_interp_slots, C72_absent, C72_bad_shape, C73_refuted_destroy, C76_multi_safe, C76_mat_string_rule, C76_attribute_iff, C80_array_partial, C80_list_partial, C80_scalar_partial, C80_scalar_shape, C80_no_rows_ub, C80_list_no_rows, C80_uint64_wraps, C80_double_ub, C81_has_variable_reads, C85_overflow_first, C85_estimate_exact, C85_first_estimate, C85_run, C85_run_exact_partial, C85_constant, C98_destroy_iff, C98_left_behind, C98_query_iff, C101_sizes, C104_refuted_unknown, C104_eval, C113_refuted_soft, C113_refuted_leak, C113_refuted_size, C116_formatted, C116_mismatch, C130_refuted_leak, C130_refuted_exceptions, C130_refuted_luke_destructor, C130_save, C130_refuted_save, C135_careful_partial, C135_left, C135_refuted_leak, C135_refuted_overwritten, C135_refuted_released, C135_reader_partial, C135_refuted, C135_refuted_undefined, C135_refuted_destroyed, C136_exact_dense, C136_in_order_partial, C136_refuted_dense, C136_refuted_first, C136_refuted_earlier, C136_interval, C136_refuted_off, C140_settings, C140_untouched, C140_copy_untouched, C161_refuted_one, C161_clone_needs_arrays
* propext, Classical.choice, Quot.sound (1073): C01_closed_by_one_eof, C02_trailing_hash_diverges, C02_refuted, C02_self_include_unbounded, C02_terminates_partial, C02_plain_terminates_partial, C03_comment_invisible_partial, C03_comment_at_eof_leaks, C03_refuted, C04_blank_runs_interchangeable, C04_blanks_after_punctuation, C04_blanks_before_punctuation, C04_trailing_blanks, C04_tokens_of_layout, C05_kinds_from_context, C05_quoted_punctuation_is_punctuation, C06_round_trip_partial, C06_canonical_round_trip_partial, C06_empty_document_ub, C07_accepts_grammar_partial, C07_text_accepted_partial, C07_unclosed_rejected, C07_refuted, C08_no_ub_partial, C08_cut_statement_ub, C08_refuted, C08_missing_semicolon_text, C09_last_definition_wins, C09_no_duplicates, C09_blocks_are_those_opened, C09_blocks_of_type, C10_registration_bijective, C10_ids_are_stable, C11_unknown_aliases_root, C11_refuted, C11_unknown_not_user_type_partial, C12_untouched_rule, C12_untouched_iff_never_read_partial, C12_script_redefinition, C13_shape_unchanged, C13_values, C13_reported_names, C13_built_unique, C13_all_trees, C14_right_biased_union, C14_blocks_union, C14_all_trees, C14_last_wins, C14_pointers, C15_no_new_settings_partial, C15_double_free_iff_partial, C15_refuted, C15_source_changes_through_target, C16_copy_contents_partial, C17_bool_check_matches_get, C17_bool_check_single, C18_digits, C18_refuted, C18_characters, C18_outside, C19_characters, C19_case, C19_longest, C19_scalar_partial, C19_vector_partial, C19_vector_length, C19_refuted, C20_overwrite_numbers_exact, C20_refuted_unsigned, C20_overwrite_script_several, C20_refuted_script, C21_type_by_extension, C21_every_name, C22_first_definition_wins, C22_round_trip_partial, C22_attribute_round_trip_partial, C22_refuted_no_rows, C22_refuted_precision, C22_final_newline_optional, C23_round_trip, C23_second_write_ignored, C24_repeatable_iff_partial, C24_non_releasing_partial, C26_scalar_iff_one_by_one, C26_sdt, C26_sdt_attribute, C27_last_line, C28_line_count_partial, C32_rounded_exact, C32_rounded_div, C32_rounded_dot, C32_rounded_laws, C32_rounded_cross_sign, C32_refuted_rounded_sum, C32_refuted_rounded_div, C32_dot, C32_norm, C32_normalize, C33_rounded_exact, C33_rounded_product, C33_rounded_vector, C33_rounded_outer, C33_rounded_unit, C33_refuted_rounded, C33_mul_assign_exact, C33_mul_assign_lower_partial, C33_mul_assign_first_column, C33_mul_assign_self_refuted, C33_matrix_product, C33_matrix_vector, C33_refuted, C33_mul_assign_refuted, C34_storage_partial, C34_refuted, C34_step_appends_partial, C35_step_is_runge_kutta, C35_row_sums, C35_order_five, C35_embedded_order_four, C35_polynomials_exact, C35_error_zero_for_cubics, C36_accepted_iff, C36_flag, C36_range_partial, C36_no_growth_after_rejection, C36_rejected_shrinks, C36_refuted, C36_step_no_growth, C37_forward, C37_rejections_end_partial, C37_rejections_end_flushing, C37_refuted_at_zero, C37_refuted_unchecked, C37_rounded_exact, C37_rounded, C37_rounded_strict, C37_rounded_rejections_end, C37_refuted_rounded, C38_rounded_exact, C38_rounded, C38_rounded_stored, C38_rounded_error, C38_rounded_same, C38_refuted_rounded, C38_values_partial, C38_ends, C38_end_derivatives, C38_stored_times, C38_beyond_rejected, C38_refuted_below, C38_any_order, C38_refuted_unsorted, C38_undefined, C39_rounded_exact, C39_rounded, C39_rounded_double, C39_refuted_rounded, C39_uniform_times, C39_degenerate, C40_rounded_exact, C40_rounded_low, C40_rounded_high, C40_rounded_between, C40_refuted_rounded, C40_low_partial, C40_high_partial, C40_nodes_partial, C40_between_partial, C40_maps, C40_refuted, C40_refuted_huge, C40_defined_iff, C40_scaled, C41_builtin_partial, C41_png_rows_partial, C42_trapezoid_partial, C42_true_maximum_partial, C42_refuted_endless, C42_refuted_bounds, C42_zero_step, C42_rounded_partial, C42_rounded_double, C42_rounded_error, C42_refuted_rounded, C42_lost_exactly, C42_rounded_exact, C43_rounded, C43_rounded_double, C43_refuted_rounded, C43_shrinks, C43_in_range, C43_bracket, C43_close, C43_tolerance, C43_wrong_half, C44_exact, C44_no_miss_partial, C44_iff_partial, C44_refuted_parallel, C44_refuted_vertex, C44_refuted_open, C44_empty_undefined, C44_rounded_hit, C44_rounded_miss, C44_rounded, C44_rounded_double, C44_rounded_exact, C44_refuted_rounded, C45_bounds_partial, C45_refuted, C46_max_radius_partial, C46_max_min_partial, C46_first_two, C46_refuted_undefined, C46_refuted_analytical, C46_refuted_third, C46_rounded_exact, C46_rounded, C46_rounded_double, C46_refuted_rounded, C47_no_miss_partial, C47_pointer_overload, C47_refuted_horizontal, C47_refuted_wall, C47_refuted_pointers, C48_jacobian, C48_partials, C48_divergence, C48_curl, C48_same_field, C48_strength_partial, C48_strength_sq, C48_refuted, C48_components, C48_reversed, C49_exact, C49_gradient_partial, C49_refuted, C49_axis_zero, C49_refuted_axis, C50_same_flux, C50_flux_derivatives, C50_tangent, C51_rdqdr, C51_rdqdr_axis, C52_axisymmetric_partial, C52_refuted_axis, C52_norm_partial, C52_norm_exact, C52_refuted_outside, C52_consistent, C52_zero_field, C52_jacobian, C52_gradient, C52_outside_jacobian, C52_flux, C53_transposed, C53_rows, C53_roundtrip_partial, C53_refuted_noflux, C53_refuted_sdt, C53_two_point_columns, C53_columns, C54_analytic_clone, C54_contours, C54_no_contour, C54_members, C54_clone_partial, C54_refuted_separatrix, C55_search_partial, C55_search_exact, C55_refuted_decreasing, C55_refuted_overflow, C56_between_partial, C56_grid_partial, C56_below_partial, C56_above_exact, C56_refuted_above, C56_refuted_zero, C56_single, C56_refuted_initialize, C56_initialize_iff, C56_gocode_eval, C56_refuted_gocode_below, C56_rounded_exact, C56_rounded_between, C56_rounded_grid, C56_refuted_rounded, C56_refuted_rounded_first, C57_insert_partial, C57_order_partial, C57_eval_partial, C57_refuted_below, C57_refuted_two, C57_refuted_order, C58_code_partial, C58_numeric_partial, C58_refuted_extrapolation, C58_momentum_partial, C58_refuted_log, C58_profile, C58_analytical, C58_radial, C59_table, C59_accepts, C59_accepts_iff, C59_flip, C59_flip_back, C59_outside, C59_inside, C59_log_nonneg, C59_log_grid, C59_rejects, C59_rejects_negative, C59_numeric, C60_history_partial, C60_other_pitch_partial, C60_refuted_conversion, C60_reversed_pitch, C61_rounded_exact, C61_rounded, C61_double, C61_rounded_parity, C61_refuted_rounded, C61_rounded_sum, C61_rounded_value, C61_bonnet, C61_values_partial, C61_refuted_few, C61_one, C61_parity, C61_bounded, C63_linear, C63_power_partial, C63_refuted_power_zero, C63_refuted_power_negative, C63_bessel, C63_gaussian, C63_gaussian_not_cutOff, C63_rejects, C63_uniform, C63_unit, C63_product, C63_shift, C63_rounded_exact, C63_rounded, C63_rounded_double, C64_avalanche_formula, C64_connorHastie_formula, C64_even, C64_expPitch, C64_avalanche, C64_refuted_avalanche_zero, C64_connorHastie_pos, C64_connorHastie_partial, C64_refuted_connorHastie, C64_refuted_connorHastie_zero, C64_cutoff, C65_soft_exact, C65_soft_otherwise, C65_gocode_exact, C65_dream_data, C65_gocode_otherwise, C65_shift, C65_soft, C65_soft_rejects, C65_refuted_null, C65_dream, C65_gocode, C65_luke, C66_parts_bounded, C67_refuted, C67_cross_refuted, C68_dense_is_combination, C68_dense_order_four, C68_cubics_exact, C69_matrices_partial, C69_multi_always_throws, C69_lists_have_no_class, C69_multi_double, C69_refuted, C71_table, C71_agrees, C72_rounded, C72_refuted_special, C72_vector, C72_verify, C74_matrix_partial, C74_separate_rows_ub, C74_refuted, C74_list, C74_scalar, C74_multi, C75_read_back_rule, C75_mat_marks, C75_struct_marks, C75_strings_partial, C75_refuted, C76_matrix_rule, C76_list_rule, C76_refuted, C76_reads_partial, C76_refuted_attribute, C77_writes_never_throw_sfile, C77_taken_name_throws, C77_refuted, C78_hdf5_scalar, C78_hdf5_string, C78_hdf5_written_iff, C78_mat_partial, C78_mat_string_partial, C78_refuted, C79_january_ub, C79_header_partial, C79_refuted, C79_wrong_month, C80_list_of_matrix, C80_refuted, C81_others_untouched, C81_written_exists, C81_unwritten_unchanged, C82_positions_partial, C82_tokens_unchanged, C82_file_rule, C82_refuted_newline, C82_refuted_string, C82_refuted_include, C83_reports_exact, C83_unclosed_exact, C83_undefined_exact, C83_indices, C83_messages, C84_colours_only, C84_reads_back, C84_layout, C84_refuted_zero, C84_line_colours, C85_overflow_iff, C85_no_overflow, C85_average, C86_history_independent, C86_is_fromString, C86_from_file, C86_from_file_fails, C86_from_stdin_partial, C86_sequence, C86_refuted_nul, C86_refuted_stdin_twice, C86_refuted_leftover_name, C86_stdin_memory, C87_sdt_session, C87_sdt_read_back, C87_sdt_update_exact, C87_refuted_sdt_update, C87_refuted_sdt_missing, C87_refuted_sdt_unwritable, C87_sdt_reuse, C87_refuted_sdt_reuse, C87_refuted_sdt_after_error, C87_sdt_safe, C87_h5_session, C87_h5_update, C87_h5_update_keeps, C87_h5_read, C87_h5_failure_reported, C87_h5_life_exact, C87_refuted_close_twice, C87_refuted_destroy, C87_refuted_handle_lost, C87_create, C88_nodes_agree, C88_grid, C88_refuted_flux, C88_refuted_domain, C88_domain_circle, C89_load_partial, C89_table_node, C89_reproduces, C89_bounded, C89_refuted_first_angle, C89_refuted_periodic, C89_only_equilibria, C89_wall_rejected, C89_refuted_two_points, C89_refuted_empty, C90_estimate, C90_number_iff, C90_nan_iff, C90_infinite_iff, C90_within_iff, C90_zero_iff, C90_accepted_steps, C90_component_partial, C90_good_steps_accepted, C90_zero_tolerance, C90_last, C90_last_none, C90_refuted_componentwise, C91_polynomials, C91_linear, C91_linear_invariants, C91_cubics_accepted, C91_dense_cubics, C91_dense_invariants, C92_refuted_zero, C92_initialize_partial, C92_initialize_succeeds, C92_refuted_alloc, C92_insert_partial, C92_refuted_insert_alloc, C92_insert_succeeds, C92_array_used_twice, C93_radii_partial, C93_heights_partial, C93_refuted_tip, C93_refuted_side, C94_radii_partial, C94_refuted_exception, C94_refuted_other_contour, C94_own_contour, C94_unset, C95_restart_partial, C95_refuted, C96_range_partial, C96_rejections_end_iff, C96_refuted_setters, C96_refuted_beta, C96_setters, C96_memory, C97_values_partial, C97_ends, C97_refuted, C97_never_on, C98_ownership_partial, C98_balance, C98_refuted_leak, C98_refuted_shared, C98_clone_iff, C99_exact, C99_level_partial, C99_refuted_vertical, C99_refuted_beyond, C100_component, C100_contour, C100_load_partial, C100_refuted_outside, C100_refuted_scrambled, C100_meant, C101_undefined_iff, C101_starved_iff, C101_not_misread, C101_opens_iff, C101_safe_partial, C101_refuted_no_rows, C101_refuted_overflow, C101_refuted_allocation, C102_overwrite_loses_nothing, C102_step, C102_ownership_partial, C102_nothing_left, C102_values, C102_copy, C102_refuted_copied_object, C102_refuted_same_list, C102_destroy_iff, C103_same_interpreter, C103_settings, C103_made, C103_document, C103_distinct_document_partial, C103_balance_partial, C103_refuted_reload, C103_refuted_destroyed, C103_refuted_unclosed, C104_careful_partial, C104_tidy_partial, C104_refuted_leak, C104_delete, C104_destroy, C104_refuted_clone, C104_refuted_clone_all, C104_refuted_gocode, C105_clones, C105_same_pitch, C105_shared, C106_crosses, C106_crosses_finite, C106_intersects, C106_intersects_finite, C106_colour, C106_colour_finite, C106_profile, C106_profile_finite, C106_constructors_accept, C106_linear_bounds, C106_distribution, C106_distribution_finite, C106_table, C106_table_finite, C106_code, C106_analytic, C106_analytic_finite, C106_numeric, C106_numeric_finite, C106_numeric_height, C106_refuted, C106_partial, C107_vector, C107_derivatives, C107_copy, C107_flux, C107_vector_overwritten, C107_copy_overwritten, C107_destroyed, C107_converted, C107_refuted, C107_numeric_vector, C108_pointer, C108_room, C108_moved, C108_restart, C108_fresh, C108_refuted, C109_settings_partial, C109_blocks_partial, C109_calls_partial, C109_released, C109_destroy_iff, C110_load_partial, C110_safe_partial, C110_momentum_partial, C110_refuted_radii, C110_order, C110_refuted_values, C110_refuted_wrap, C110_refuted_empty, C110_refuted_slice, C110_scale, C110_incomplete, C111_load_partial, C111_safe_partial, C111_radii, C111_radius_error, C111_momentum_partial, C111_refuted_radii, C111_refuted_rounded, C111_refuted_collapse, C111_refuted_truncated, C111_refuted_field, C111_incomplete, C111_incomplete_load, C112_auto, C112_named, C112_refuted, C112_refuted_ending, C113_luke, C113_depr, C113_dream_partial, C113_luke_momentum, C113_depr_momentum, C114_loaded, C114_merged, C114_merged_known, C114_number, C115_soft_partial, C115_dream_partial, C115_soft_between_partial, C115_soft_one, C115_refuted_zero, C116_sites_partial, C116_exception_partial, C116_integers, C116_exchange, C116_sign_partial, C116_refuted_sign, C116_refuted_sizes, C116_filename_iff, C116_refuted_filename, C117_cell, C117_between, C117_bounds, C117_node, C117_table_exact, C117_nan, C117_log_cell, C117_log_node_partial, C117_refuted_log, C117_reproduces, C117_outcomes, C117_refuted_abort, C118_inside_partial, C118_below_iff, C118_above_iff, C118_soft_partial, C118_refuted_extrapolation, C119_splines, C119_refuted_grid, C119_refuted_short, C119_outcomes, C119_constructor, C119_loaded_arrays, C119_file, C119_luke_arrays, C119_luke, C119_convert, C119_clone, C119_field, C119_flux_partial, C119_refuted_flux, C120_linear_partial, C120_nodes_partial, C120_outcomes, C120_types, C120_refuted_order, C120_refuted_single, C120_refuted_temperature, C120_time, C120_only, C121_values_partial, C121_outside_exact, C121_names, C121_limits, C121_refuted_single, C121_refuted_zero, C121_refuted_order, C121_only, C121_modes_partial, C121_nodes, C122_cell, C122_history, C122_parallel, C122_shared_vector, C122_shared_cell, C122_tables, C122_end, C123_spline_unique, C123_mixed, C123_row, C123_column, C123_smooth, C123_interval, C123_nodes, C123_bilinear, C123_node_exact, C123_field_nodes, C123_derivatives, C123_field_bilinear, C123_pivots, C123_curvature, C123_sides, C124_numbers, C124_spreads, C124_finite, C124_reproduces, C124_table_exact, C124_table_partial, C124_log_partial, C124_refuted_zero, C124_refuted_negative, C125_values, C125_akima_parabola, C125_akima_periodic, C125_akima_joins, C125_steffen_parabola, C125_steffen_first, C125_nodes, C125_spline, C125_steffen_smooth, C125_polynomial_smooth, C125_steffen_between, C125_refuted_akima, C125_refuted_linear, C125_refuted_between, C125_file_partial, C125_convert_partial, C125_convert_log_partial, C125_periodic, C126_exact, C126_nonneg, C126_between_partial, C126_error, C126_error_double, C126_node, C126_border, C126_refuted_between, C126_dist_partial, C126_refuted_first, C127_in_place_partial, C127_load_partial, C127_missing, C127_inserted, C127_depth, C127_terminates, C127_refuted_value, C127_refuted_comment, C127_refuted_string, C127_refuted_name, C128_bounds_partial, C128_radii_partial, C128_settled_partial, C128_remembered_partial, C128_alone, C128_warm_partial, C128_calls, C128_ends, C128_not_inside, C128_refuted_race, C128_refuted_value, C128_refuted_again, C129_png, C129_png_exceptions, C129_live, C129_refuted_leak, C129_released_partial, C129_refuted_handle, C129_refuted_silent, C129_refuted_flush, C129_refuted_default, C129_complete_partial, C129_outcomes, C129_refuted_grows, C130_numeric, C130_numeric_made, C130_refuted_no_contour, C130_luke, C130_luke_wall, C130_save_iff, C130_refuted_reload, C131_divide_one, C131_divide_minus_one, C131_refuted_divide, C131_refuted_quotient, C131_divide_zero, C131_norm, C131_norm_bounds, C131_normalize, C131_refuted_normalize, C131_dot, C131_dot_sound, C131_add, C131_multiply, C131_convert, C131_convert_part, C131_round_trip, C131_root, C131_complex_norm, C131_complex_normalize, C131_complex_dot, C131_complex_square, C131_refuted_complex, C132_load, C132_fits, C132_missing, C132_value_32, C132_value_64, C132_value_iff, C132_refuted_negative, C132_arrays, C132_arrays_partial, C132_lists, C132_refuted_shapes, C132_refuted, C133_text, C133_nearest, C133_error, C133_stable, C133_same_iff, C133_whole, C133_order, C133_refuted, C133_refuted_grid, C133_load, C133_rewrite, C133_refuted_nonfinite, C133_opens_iff, C133_reads_integers, C133_exact_iff, C133_read, C133_read_none, C134_exact, C134_point, C134_outside, C134_back, C134_inside_partial, C134_refuted_axis, C134_refuted_axis_rounded, C134_refuted_direction, C134_refuted_directions, C134_refuted_sliver, C136_exact, C136_refuted, C137_row, C137_step, C137_history, C137_run, C137_proportional, C137_exact, C137_fifth, C138_vertical, C138_horizontal, C138_relative, C138_strength, C138_linear, C138_constant, C138_refuted, C139_estimate, C139_accepted, C139_component, C139_accepts, C139_factor, C139_run, C139_sharp, C140_value, C140_last_written, C140_sub_blocks, C140_found, C140_types, C140_equality, C140_copy, C140_refuted_equality, C140_refuted_copy, C140_refuted_no_values, C141_radius, C141_field, C141_jacobian, C141_curl, C141_length, C141_strength, C141_nan, C141_gradient, C141_units, C141_whole, C142_pitch, C142_hastie, C142_avalanche, C142_relative, C142_radial, C142_refuted_small, C142_refuted_pitch, C143_value, C143_units, C143_run, C144_hit, C144_alarm, C144_between, C144_agree, C144_margin_needed, C144_slope_needed, C144_level_outward, C144_level_mirrored, C145_power, C145_bessel, C145_gaussian, C145_power_error, C145_gaussian_error, C145_bessel_error, C145_double, C145_relative_needed, C145_library_needed, C145_edge_jump, C146_step, C146_estimate, C146_dense_step, C146_convergence, C146_limit, C146_forward, C146_dense, C146_lipschitz_needed, C146_integrals, C146_linear, C146_rounded, C147_estimate, C147_loop, C147_step, C147_reaches, C148_orthogonal, C148_modes, C148_mean, C148_square, C148_unique, C148_file, C148_sign_needed, C149_number_partial, C149_refuted, C149_forward_partial, C149_mean_pitch, C149_expPitch, C149_no_current, C150_lines, C150_through, C150_turns_partial, C150_refuted, C150_close_partial, C151_factor_partial, C151_exact_iff, C151_constant_partial, C151_refuted, C151_flux_of_field, C152_density_partial, C152_middle_partial, C152_refuted, C153_back_partial, C153_refuted_back, C153_turned, C153_listed_partial, C153_parts_partial, C153_refuted_parts, C153_back_space, C153_listed_space, C153_turned_space, C153_part_space, C153_parts_space_partial, C153_level_space_partial, C153_refuted_space, C154_inverse, C154_nowhere_zero, C154_stronger_inside, C154_extremes, C154_along, C154_midplane, C154_towards, C154_follow, C155_step, C155_run, C155_dense, C155_exists, C155_atol_needed, C155_first_step_needed, C155_units_needed, C156_step, C156_run, C156_space_partial, C156_convex, C156_convex_step, C156_convex_space_partial, C156_refuted_space, C156_closed_needed, C157_gain, C157_sign, C157_growth, C157_decay_partial, C157_long_steps, C157_amplitude, C157_amplitude_changes, C157_amplitude_bound_partial, C157_refuted_decay, C157_refuted_amplitude, C158_plane, C158_space, C158_radii, C158_bounds, C158_axis_needed, C158_sign_needed, C159_turned, C159_turned_field, C159_turned_flux, C159_units, C159_units_field, C159_units_flux, C159_mirrored, C159_mirrored_field, C159_mirrored_flux, C159_plane_needed, C160_sum, C160_product, C160_factor, C160_units, C160_sum_needed, C161_eval_partial, C161_separate_partial, C161_exact, C161_refuted, C161_refuted_again
