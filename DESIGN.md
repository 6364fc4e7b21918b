# Formal model of ahkab: design

The code under study is `/repo` (ahkab, Python). It is read as text only; the
Lean model in `lean/Verif` is a hand translation, function by function. Every
definition of the model carries a comment with the file and lines it mirrors
and the simplifications made.

## Layout

* `lean/Verif/Model/X.lean`: the model of a group of functions.
* `lean/Verif/Proof/X.lean`: helper lemmas, where they are long.
* `lean/Verif/Props/X.lean`: small independent specifications, the property
  theorems, and next to each theorem an `example` with a concrete non-trivial
  case that satisfies its hypotheses.
* `MANIFEST.json` maps each property of `properties.jsonl` to exact theorem names.
* `seeded/LOG.jsonl` logs the mutation attempts on the model. Most entries come from a script that edits one
  operator or constant, rebuilds and records what failed. Its `claim_broken` is derived from the names of the failed
  theorems. Where only a lemma failed (about a fifth of the entries), the claims are those of the modules that
  depend on it (`modules_blocked`). These were not built, so such an entry shows that the edit is noticed, not that
  each of the claims is false for the edited model. Edits that no theorem noticed have `outcome: survived` and an empty
  `theorems_failed`. They were added to the log later than the others, not at the time of the attempt. Some of them change
  nothing that can be observed (defaults of list accesses that are in range, error kinds that are caught), for others
  theorems were added. Survivors are run again against later theorems, with a second line (`... when run again`). Such a
  rerun builds only the modules that import the edited module directly, or, where the line says `against the modules using
  it`, also those that import its `Props` or `Proof` module; "survived" there does not mean that no other module fails.
  Edits that do not compile are not logged.

## Conventions

* Python exceptions are values (`Except`-like inductive types or `Option`).
* Inner numeric solvers whose outcome cannot be predicted (Newton convergence,
  local truncation error) are oracles: theorems hold for every oracle.
* Floating point is replaced by exact arithmetic: ℚ where the code only uses
  field operations and comparisons, ℝ where it uses exp/log/tanh/sqrt. Rounding,
  overflow, NaN are not modelled, and no theorem claims anything about them.
* Python dictionaries are association lists, numpy matrices are index functions
  or Mathlib matrices. Strings that matter are `List Char` or `String`.
* Where the code breaks a property, a theorem `..._refuted` proves the negation of the
  full statement with a concrete witness, and a theorem with the suffix `_partial`
  proves what remains true. The disagreement is listed at the end of this file.

## Trusted base

* The Lean 4.33.0 kernel and Mathlib as installed. Theorems depend on no axioms
  other than `propext`, `Classical.choice`, `Quot.sound`. No `sorry`, no
  `native_decide`, no `bv_decide`, no axioms of our own.
* The faithfulness of the hand translation (checked by reading, and by mutation
  testing that each clause of the model is pinned by some theorem).
* Not modelled: numpy/scipy linear algebra (specified by the equation it solves),
  floating point, file system and encoding, plotting, command line, threads,
  sympy simplification, the interpreter's recursion limits, printing layout.

## Properties: what is modelled and how it is proved

| id | module | plan |
|---|---|---|
| C01 Node names and node numbers stay in one-to-one correspondence | `Nodes` | association table of (name, number) pairs replaces the two-way dict; invariant by induction over an operation list |
| C02 Node numbers are contiguous, with the reference node numbered 0 | `Nodes` | same model; contiguity stated as a permutation of `List.range`, by induction over the operation list |
| C03 Removing an element does not damage the node table of the remaining circuit | `Remove` | remove_elem's purge loop; refuted by witnesses (sense nodes purged, number re-used); partial: circuits without sense ports, last node removed |
| C04 Internal nodes are fresh | `Nodes` | internal-node counter in the state; freshness over histories |
| C05 Looking up branch-current indices by part id is the inverse of looking up part ids by index | `Vde` | element list with a voltage-defined flag and folded names; counting loops as recursive functions; spec by `List.filter`/position |
| C06 The assembled MNA system conserves current | `Mna` | unreduced matrix as function Nat→Nat→ℚ assembled by left folds as in the code; column sums by induction over the element list |
| C07 The MNA equations say exactly what the circuit laws say | `Mna` | spec = per-element current/law tables written independently; refinement by induction; H sign and E overlap refuted, partial theorem for the rest |
| C08 Dynamic elements enter transient and AC through the same, correct matrix | `Dyn` | same style for generate_D and _generate_AC |
| C09 Mutual inductance is reciprocal and physical | `Dyn` | coupling stamps; energy inequality over ℝ |
| C10 AC excitation contains exactly the AC sources | `Mna` | AC constant vector assembled by two loops |
| C11 Dropping the reference row and column loses nothing | `Mna` | reduced vs full system, from C06 |
| C12 Gmin loads only nodes, never branch equations | `Mna` | gmin matrix as index function |
| C13 Newton damping keeps non-linear port voltages within the lock range | `Newton` | get_td over ℚ with port list; invariant of the accumulating minimum |
| C14 Convergence is reported exactly when every unknown meets its tolerance | `Conv` | three loops modelled on lists; spec with ∀ index |
| C15 A linear circuit is solved exactly in one Newton step | `Newton` | one iteration of mdn_solver over Mathlib matrices |
| C16 A successful DC solve solves the circuit that was asked for | `Homotopy` | state machine of dc_solve with an oracle for the inner solver; refuted for source stepping (last factor .9); partial for the others |
| C17 The DC solve always terminates after a bounded number of attempts, in the documented order | `Homotopy` | same machine with fuel-free bound (measure) |
| C18 A DC sweep visits exactly the requested values and leaves the circuit unchanged | `Sweep` | sweep loop with oracle; exact-multiple case proved, overshoot and non-restoration refuted |
| C19 Linear axes are evenly spaced and hit both end points | `Axes` | iterator state machine over ℚ |
| C20 Logarithmic axes are geometrically spaced and hit both end points | `Axes` | iterator over ℝ (Real.logb / rpow) |
| C21 combinations enumerates every k-subset once | `Comb` | recursive generator as list function; spec with sublists and Nodup |
| C22 PSS step, points and period are always consistent | `StepPts` | branch-by-branch over ℚ with explicit exception values |
| C23 Memoising a pure device function never changes its value | `Memo` | cache as association list with LIFO eviction; invariant over call histories |
| C24 Changing device state invalidates cached device evaluations | `Memo` | stateful function; refuted by witness; partial for state-independent functions |
| C25 The transient history buffer returns the most recent points, newest first | `DfBuffer` | list model; induction over additions |
| C26 Transient time points run strictly forward from tstart and never pass tstop | `Transient` | time-stepping loop with oracle for solver result and error coefficient; overshoot refuted, bounded-overshoot theorem |
| C27 Time steps respect their limits | `Transient` | same model; finiteness of rejections by geometric decrease to hmin |
| C28 Implicit Euler differentiates linear waveforms exactly | `DF` | formula over a field |
| C29 The trapezoidal formula differentiates quadratic waveforms exactly | `DF` | formula over a field |
| C30 The order-n Gear formula differentiates every polynomial of degree <= n exactly | `Gear` | general order through Lagrange interpolation in Mathlib |
| C31 The Gear predictor extrapolates polynomials of degree <= n exactly | `Gear` | general order through Lagrange interpolation |
| C32 A pulse source behaves as documented at all times | `TimeFun` | pulse branch by branch over ℚ |
| C33 A piece-wise linear source interpolates its points | `TimeFun` | pwl over ℚ |
| C34 Analytic sources are continuous at their delay and hold their offset before it | `TimeFunR` | over ℝ with Real.sin / Real.exp |
| C35 Unit suffixes scale numbers by the documented factor, whatever their letter case | `Units` | character-list model of the scanner; suffix table |
| C36 Analysis directives bind each token to one parameter | `Analysis` | token binding loop; permutation invariance |
| C37 Continuation lines join to the line they continue | `Join` | list-of-lines model |
| C38 Subcircuit instances are isolated from each other and from the caller | `Subckt` | names as character lists; prefix injectivity; collision witnesses |
| C39 Initial conditions set exactly the requested unknowns | `Ic` | index model incl. Python negative index; refuted for ground-connected capacitors; partial otherwise |
| C40 A switch's resistance always lies between RON and ROFF and follows its hysteresis | `Switch` | over ℝ with Real.tanh; state machine for hysteresis |
| C41 Switch transconductances are the derivatives of the switch current | `Switch` | HasDerivAt; gm refuted |
| C42 Diode conductance is the derivative of diode current | `Diode` | HasDerivAt over ℝ; breakdown part refuted |
| C43 Square-law MOS current is continuous and drain/source symmetric | `Mosq` | over ℝ, rational formulas |
| C44 Square-law MOS transconductances are the derivatives of the drain current | `Mosq` | HasDerivAt; gm refuted in saturation |
| C45 Device Jacobian stamps conserve current and ignore the reference potential | `Stamp` | dense stamps over ℚ; folding proof; reversed device refuted |
| C46 EKV normalised charge and current are inverse, increasing functions | `Ekv` | over ℝ |
| C47 Setting a device temperature depends only on the last temperature set | `Temp` | refuted by witness |
| C48 What is written to a results file is what is read back | `Csv` | rows/headers as lists |
| C49 Case-insensitive dictionaries are consistent maps up to case | `CiDict` | association list |
| C50 Every reported variable is read from its own unknown | `Results` | two counting loops compared |
| C51 Reported total power is the power delivered by the sources | `Power` | power accumulation loop vs. spec; refuted for G and for V after H |
| C52 The Gmin check lists exactly the variables that depend on Gmin | `Results` | decision function |
| C53 run executes the requested analyses once each, in order | `Run` | queue machine with oracle for analyses |
| C54 The shooting update satisfies the linearised periodic system | `Shooting` | matrix recurrence over Mathlib matrices |
| C55 The brute-force PSS matrix encodes implicit Euler and periodicity | `Bfpss` | block matrix |
| C56 FFT length is the smallest power of two not below the requested number of points | `Fft` | Nat arithmetic |
| C57 .FFT directive parameters reach the parameter they name | `Fft` | spec table; refuted for start/stop |
| C58 The ground-path check accepts exactly the circuits whose nodes all have a DC path to ground | `Ground` | graph search loops vs. Relation.ReflTransGen |
| C59 The circuit check rejects malformed circuits and nothing else | `Ground` | decision logic |
| C60 Printed netlist lines parse back to the same element | `Lines` | token-level printers and parsers; V/I/switch refuted |
| C61 The symbolic equations are the numeric equations with symbols in place of numbers | `Symb` | second assembler over a commutative ring; refuted for G, L names and couplings; partial |
| C62 Reported poles are the natural frequencies of the circuit | `Pz` | Weinstein–Aronszajn determinant identity |
| C63 Matrix helper functions do what their documentation says | `MatUtil` | index functions |
| C64 A failed add leaves the circuit unchanged | `AddElem` | state before/after; refuted for resistor, diode, switch |
| C65 A grounded network of positive resistors has exactly one operating point | `Passive` | Dirichlet form; injectivity implies bijectivity in finite dimension |
| C66 Resistor networks dissipate: the assembled conductance matrix is passive | `Passive` | quadratic form by induction |
| C67 The order of elements in the netlist does not change node equations | `Mna` | permutation invariance of folds |
| C68 Operating points of linear circuits superpose | `Mna` | linearity of the constant vector in the sources |
| C69 Independent sources return their DC value outside transient and their waveform inside | `Source` | decision table |
| C70 Time dependent sources are evaluated at the solver's time and placed at the right equation | `Mna` | time-dependent vector Tt |
| C71 Boolean parameters accept exactly the documented spellings | `Tokens` | string decision |
| C72 param=value splitting loses nothing | `Tokens` | character lists |
| C73 Temperature conversions are inverse | `Misc` | identity over ℚ |
| C74 The progress ticker never indexes outside its frames | `Misc` | modular counter |
| C75 Resistor value and conductance stay reciprocal | `Misc` | setter state machine |
| C76 Elements of a circuit built through the API refer to valid nodes | `Build` | invariant over call histories on the Build model, using the node-table invariant of C01. |
| C77 A failed convergence check can tell which unknowns failed | `Conv` | refuted: the debug argument is not handed on; the debug loop itself compared with the normal test. |
| C78 The Newton solver reports exactly what its last step showed | `Newton` | loop over an iteration counter with arbitrary Jacobian and residual functions. |
| C79 Damping of the first iterations never fakes convergence | `Newton` | refuted on a one-node linear circuit; for non-linear circuits see C78. |
| C80 A DC sweep returns a solution iff some sweep value was solved | `Sweep` | sweep loop with oracle; refuted without skipping and for all-failing sweeps |
| C81 Local error estimates are exact one degree above the order | `DF` | linearity plus the nodal polynomial; refuted for implicit Euler (factor h missing) |
| C82 Duplicate part ids are detected | `Small` | the comparison of list and set lengths; equivalence with the existence of two positions with equal ids |
| C83 Documented analysis and source syntax is accepted | `Directive` | table of the documented parameters compared with the specifications; every line using one of the unknown names is shown to be refused. |
| C84 Every line of a netlist file reaches its destination, once and in order | `Netlist` | invariant over the lines read; spec counts .subckt and .ends lines before each line. |
| C85 The line number recorded for a netlist line is its number in the file | `Netlist` | numbers of logical lines; false after continuation lines and after a blank line that follows a line. |
| C86 A comment at the end of an element line changes nothing | `Parse` | Models every parse_elem function on words; proves the claim for all elements but inductors, couplings, capacitors with initial condition and sources with a time function, for which witnesses refute it. |
| C87 Documented element lines are accepted and give the documented element | `Parse` | General lemmas for each form with arbitrary names and any text that reads as a number; refutations for the forms that the code does not accept. |
| C88 References inside a subcircuit stay inside the instance | `Subckt` | Model of instance expansion; the expansion leaves references as they are, so that no reference ever names an element of its instance (refuted, general theorem and concrete netlist). |
| C89 The switch closes above VT+VH and opens below VT-VH | `Switch` | Real numbers with tanh as a parameter: exact, or saturating like floating point. |
| C90 Diode temperature: state depends only on the last temperature set | `Diode` | telescoping product for the saturation current and sum for the breakdown voltage; the series resistance and thermal voltage refute the rest. |
| C91 MOS model constructors treat n and p symmetrically | `Ekv` | constructors as functions of optional arguments; mirror theorem for explicit VTO and TCV, refutations for the defaults, VFB and type letters. |
| C92 p-type EKV transistor is the mirror image of the n-type | `Ekv` | current, gmd, gms mirrored; gmg refuted. |
| C93 AC results read back are the phasors computed | `-` | [Results, Phasor] file and name level proved for any polar form; complex numbers for radians; refuted for the option ac_phase_in_deg. |
| C94 Every pole and zero can be read from a pole-zero result | `Results` | dictionary lookup; refuted when there are no zeros. |
| C95 Analyses of a netlist use the last operating point of that netlist | `Run` | `mainLoop` against a rule for each entry `x0`; refuted for a second netlist in one session. |
| C96 get_op_x0 returns an operating point | `Run` | `getOpX0` on top of `run`; the dictionary of results is returned instead of the solution. |
| C97 Analysis descriptions fit the functions that execute them | `Call` | signatures against the entries of the descriptions; `.temp` refuted. |
| C98 The shooting method returns a solution with the period asked for | `Pss` | Fixed points of the iteration are the points where all residuals vanish; show with which period they repeat. |
| C99 The residual of the brute-force method is that of the discretised equations | `Pss` | Residual with numpy product semantics for the two storage types. |
| C100 The FFT uses 1024 points unless told otherwise | `Fourier` | Parse with the table of parameters, then evaluate the number of points. |
| C101 Harmonic analysis reports DC and harmonics one to nine of the given frequency | `Fourier` | Closed form of the frequency axis for n periods. |
| C102 The interval used by .FOUR is chosen as documented | `Fourier` | Floor arithmetic. |
| C103 .FOUR reports DC and nine harmonics with the matching bins | `Fourier` | Index arithmetic on strided slices. |
| C104 fmin and fmax keep DC and exactly the band | `Fourier` | Lists of pairs of frequency and value. |
| C105 The total harmonic distortion is that of the signal | `Thd` | Discrete orthogonality of exponentials. |
| C106 The printed DC component is the DC component of the signal | `Thd` | Bin 0 of the transform. |
| C107 A plain FFT reports the multiples of the inverse of the interval | `Fourier` | Closed form of the frequency axis. |
| C108 Plot labels denote the quantities they name | `Plot` | Scanner model of the regular expressions. |
| C109 A plotted voltage between two nodes is the voltage between them | `Plot` | Value of a curve at one point. |
| C110 Symbolic unknowns are symbols of their own | `Symbolic` | name functions of symbols, collision witness; freeness under a naming hypothesis |
| C111 Symbolic substitutions reach the equations | `Symbolic` | equations with a substitution against the equations without it |
| C112 Symbolic gain is the AC response | `Symbolic` | linearity of the solution in the source symbol |
| C113 Reported zeros are zeros of the transfer function | `Pz` | matrix determinant lemma for the rank-one correction |
| C114 calculate_poles returns the poles | `Pz` | model of the subscript |
| C115 The pole-zero analysis ends | `Pz` | outcome of a run as a function of the shift; degree of det(M + s D) |
| C116 The DC guess gives every node the voltage suggested for it | `Guess` | model the construction of the equations, the removal of dependent rows and empty columns and the re-insertion of zeros; prove placement when at most one empty column lies below a used one, refute in general. |
| C117 Every port of an element gets the guess listed for it | `Guess` | loop over the ports with its port_index. |
| C118 Command-line options have the effect described in their help | `Cli` | record of options before and after; composition with the start of op_analysis. |
| C119 A reported operating point solves the circuit with the Gmin it is reported with | `Op` | dc_solve with its homotopies and the Newton model, composed to op_analysis. |
| C121 Every transient point satisfies the circuit equations | `Tran` | Model the loop with history buffer and dc_solve; induction over the passes; with default options singular steps go through Gmin stepping and break the claim. |
| C122 The transient history holds what the formula needs | `Tran` | Invariant of the loop relating the buffer to the recorded points; refute for fixed steps (TypeError). |
| C123 A transient step is kept only if every local error is within tolerance | `Tran` | Characterise new_step_coeff over the reals; voltages as claimed, currents refuted because aerror uses vea for all variables. |
| C124 Without sources the stored energy never increases | `Tran` | Energy inequality for one step of each formula, then induction over the passes with C121 giving the derivative stored with the previous point. |
| C125 The limit on time points | `Transient` | Count points along the loop; refute for exactly N points. |
| C120 AC analysis solves the small-signal equations at every frequency of the sweep | `Ac` | Model the checks, the axis and dc_solve with the empty circuit over the complex numbers; induction over the frequencies; default sweep type refuted. |
| C126 Iterating a result set yields its variables and their values | `Iter` | the four iterators as state machines on the counter kept in the object; a loop is repeated `next` until stop; equality with the list of items by induction. |
| C127 Loops over the same result set do not disturb each other | `Iter` | nested loops on the shared counter: refuted for every non-empty set; loops one after the other proved. |
| C128 as_symbol finds the symbols of a symbolic result | `Iter` | keys are symbols or strings; membership in the list of symbols characterised; sets of transfer functions refuted. |
| C129 values() of an operating point lists one value for each variable | `Iter` | `numpy.squeeze` then `tolist` of a column of any length. |
| C130 Every analysis keeps its results in a file of its own | `Files` | file system as a map, `newName`/`exec`/`read`; disjoint names proved from the dot in the suffix; negation for two analyses of one type. |
| C131 The output of every post-processing directive is kept | `Files` | `steps` over the directives, `finalTable` as last writer; negation for `.lis` files. |
| C132 Post-processing works with every output file | `Files` | reading from `stdout` modelled as the `AttributeError` it is; negation for stdout, proof for files. |
| C133 A variable that does not exist is left out of a plot | `Files` | `plotLines` with `KeyError` not caught by `except ValueError`. |
| C134 Energy gap falls and carrier density rises with temperature | `Consts` | the formulas over the reals. |
| C135 Tunnel junction: the conductance is the derivative of the current | `Tunnel` | current over the reals, HasDerivAt of the value returned by get_i; oddness by symmetry of the two terms |
| C136 Tunnel junction: Simmons' formula with the barrier PHI_B | `Tunnel` | Simmons' formula stated on its own and compared: the code uses half the barrier; refuted by the sign of the current at V = PHI_B |
| C137 Tunnel junction: passive | `Tunnel` | monotonicity of E exp(-a sqrt E) for a sqrt E at least 2; negative conductance near the barrier for every junction |
| C138 Tunnel junction: a current for every voltage | `Tunnel` | exact domain: ValueError beyond the barrier, ZeroDivisionError of the conductance at it |
| C139 Reciprocity | `Recip` | bilinear forms of the assembled matrices, solutions of two circuits that differ in their sources |
| C140 Balance of power in AC analysis | `Stable` | hermitian forms of the node and branch rows |
| C141 Natural frequencies of passive circuits | `Stable` | power balance of a natural oscillation |
| C142 Poles reported for passive circuits are not unstable | `Stable` | complex eigenvalues of the time-constant matrix are natural frequencies; counterexample with couplings and a shift |
| C143 Node voltages of resistor circuits lie between those of the sources | `Bound` | From the meaning of the rows (C07): weigh the node equations with the part of each voltage above the bound; every resistor contributes a non-negative term, the sources nothing, so this part solves the homogeneous system, which is regular because a point was reported (C119). |
| C144 A circuit in its steady state stays there | `Steady` | Invariant of the loop of C121: all entries of the history are equal and have derivative zero; each formula then gives derivative zero and the same prediction, and Newton started at a solution stays there (C78). Refuted for the reported operating point, from which Gmin has been removed although the transient analysis includes it. |
| C145 Circuits with diodes have at most one operating point | `Devices` | balance of power of the difference of two solutions with the currents returned by the device models as the loop that builds Tx adds them |
| C146 Newton's method does not meet singular matrices in circuits with diodes | `Devices` | balance of power for a vector in the kernel; false for diodes in breakdown, whose conductance has the wrong sign |
| C147 The element tables of an operating point | `OpInfo` | model of _get_elements_op and the get_op_info methods; loop invariant for the dictionaries; Tellegen's theorem with devices for the balance; refuted for controlled sources (no rows) and for names with another letter |
| C148 Elements are found and removed by name | `Lookup` | characterise the first match, then erase and append; refuted where has_duplicate_elem passes names that differ in case only |
| C149 AC analysis linearises the operating points | `Signal` | differentiate the row equations of the operating point (Devices, Bound) in the source amplitude, identify the derivative with matrix and excitation of AC analysis (MnaSrc, Ac); continuity of the inverse of Y for the limit; refutation for the reported operating point, which has no Gmin. |
| C150 Devices that take power cannot lift a voltage above those of the sources | `Rest` | weigh the row equations (Devices, Recip) with the part of the node voltages beyond a bound; each summand has a sign, so each is zero; Gmin or the regular circuit of resistors then gives zero. Refuted for the coded diode, whose current at 0 V is IS, by the intermediate value theorem. |
| C151 Devices in parallel | `Mos` | the models of Mosq, Ekv and Diode with the multiplier scaled; refuted for the EKV conductances, which do not contain M. |
| C152 Transistors take power | `Mos` | closed form of the square-law current; for EKV monotonicity of the normalised current (C46) and of the smoothing functions; refuted for square-law transistors below threshold. |
| C153 Device models are kept under their labels | `Models` | Model add_model, remove_model and parse_models over an arbitrary constructor, with keyword binding as in Python; reduce both to the same outcome function. |
| C154 A printed diode model reads back as the same model | `Models` | Prove what is read for each parameter; refute for TEMP (printed in Kelvin, read as Celsius), NBV and IKF (not printed) and the default of TEMP (not converted). |
| C155 The region reported for a square-law transistor is the region of its current | `MosqInfo` | Model update_status_dictionary; prove the region for n-type devices with the drain not below the source; refute for the strip below the uncorrected saturation limit, p-type, and reversed devices. |
| C156 Operating point information belongs to the voltages asked for | `MosqInfo` | Model the status dictionary as a state machine; invariant: a remembered triple has equal numbers; prove freshness for all other voltages, refute for equal ones. |
| C157 A DC sweep sweeps the named source over the requested axis | `DcFront` | whole dc_analysis with both axes over the reals; refuted for the case of LOG, one point and equal end points |
| C158 A DC sweep of a linear circuit gives points on a straight line | `DcLinear` | superposition of the assembled equations, the operating point of a linear circuit (C119) and the sweep loop |
| C159 Transients of linear circuits superpose | `Super` | three runs in lockstep: the formulas are linear in the history and the solver is linear in the sources |
| C160 Transients do not depend on the origin of time | `Super` | the formulas use differences of times only |
| C161 AC analysis is linear in the AC sources | `AcLinear` | uniqueness of the solutions characterised by C120 |
| C162 Operating point information of an EKV transistor belongs to the voltages asked for | `EkvInfo` | status dictionary with optional entries; calls as a list; the tuple case is refuted |
| C163 The region reported for an EKV transistor | `EkvInfo` | monotonicity of the pinch-off voltage and of the reverse voltage |
| C164 A printed analysis reads back as the analysis | `PrintAn` | printing over ordered dictionaries, reading by the model of the directives |
| C165 EKV transconductances are the derivatives of the drain current | `EkvG` | current versus charge by the inverse function theorem; forward current and pinch-off voltage; refuted at zero bias and for devices in parallel |
| C166 Transistor constructors refuse parameters out of range | `MosCtor` | both constructors with all arguments, the checks, and the devices |
| C167 The printed text of a circuit reads back | `CircStr` | Model `Circuit.__str__` and compose it with the models of reading (Netlist) and parsing (Parse). Proved for the elements that parse back one by one (C60): same list, same order, same lines again. Refuted: the title never reads back (for every title), models are not printed (a diode is refused), capital letters are lost. |
| C168 A slower circuit does the same, slower | `Scale` | Prove that the generated static equations do not change and the dynamic matrices are multiplied (without `options.cmin`), that each formula commutes with stretching of time, hence the whole transient run; AC sweeps through C120; local errors of trap and gear; refute for implicit Euler and for `options.cmin`. |
| C169 Raising all impedances leaves the voltages alone | `Imp` | the stamps of every element commute with multiplication of rows and columns by the factor, hence the matrices are those of the first circuit multiplied from both sides by diagonal matrices; carried through `op_analysis` and `ac_analysis`; refuted when Gmin keeps its value |
| C170 What the analyses find does not depend on the order of the elements or the numbers of the nodes | `Rename` | The assembled static and dynamic matrices of a renumbered, reordered circuit are the permuted matrices; determinants agree; op_analysis results correspond by node name and element name; AC solutions are permuted. The order matters for whether a CCVS can be assembled at all (see C67_ccvs_order_refuted), so both orders are assumed to assemble. |
| C171 Circuits that are equivalent by the textbook have the same operating point | `Laws` | Equations of the assembled matrices = laws with currents called by element names; uniqueness = only the zero solution without sources; every replacement maps solutions of the laws of one circuit to solutions of the other. |
| C172 The shooting method reports a periodic solution only after four small updates in a row | `PssRun` | characterise the loop by the first run of four small updates with a counter invariant; use the exactness of the update (C54) for linear circuits; compare the loop over the sources with the transient's one |
| C173 The brute-force method reports a periodic solution of implicit Euler | `PssRun` | split the large system into blocks (C55), show the equivalence with the equations of every point, induct over time; compare the loop over the sources with the transient's one |
| C174 AC analysis finds the phasors that obey Kirchhoff's laws with the impedances of the elements | `AcLaws` | C174_phasors: solutions of the assembled complex equations are exactly the phasors obeying the laws (split into real and imaginary parts, node and branch rows of C07, C08, C10). C174_results: the reported lines satisfy them and are the only ones. C174_capacitors, C174_resistors, C174_lowpass are consequences. |
| C175 A regression test passes only if the simulation agrees with its reference | `Testing` | Proved: a column that passes is the abscissa or agrees with the column of that name at every point (C175_column_partial), the converse (C175_accepted), operating points (C175_op), the loop over analyses (C175_test), pairing of poles (C175_singularities). Refuted: failed analyses pass (C175_failed_refuted), missing variables and analyses pass (C175_missing_refuted), variables equal to the abscissa are not compared (C175_abscissa_refuted), simulations that stop early pass (C175_early_refuted), only the first of several results is compared (C175_tuple_refuted), poles within the tolerance may be refused (C175_singularities_refuted). |
| C176 Existing references of a regression test are never changed by running it | `Testing` | C176_kept: all references present. C176_stored: after a reference run every reference holds the result and exists. C176_itself: results compared with themselves pass. C176_overwritten_refuted: one missing reference makes the test replace all of them without comparison. |
| C177 A regression test leaves the session as it found it | `Testing` | C177_netlist_partial: netlist tests whose files exist in the end. C177_api_partial: an API test on its own. Refuted: a missing output file keeps the options (C177_file_refuted), two API tests constructed before they run exchange options (C177_api_refuted), unknown options (C177_unknown_refuted), AttributeError after skipping (C177_skip_refuted), /tmp/ compared with four characters (C177_tmp_refuted). |
| C178 Raising a resistance never lowers the resistance seen by a source | `Rayleigh` | Tellegen's theorem with the currents of one circuit and the voltages of the other gives C178_balance and C178_dirichlet; C178_raised compares two solutions; C178_current, C178_voltage and C178_resistance state it for the points reported by op_analysis. |
| C179 All ways of reading an AC result agree | `AcRead` | The array built from the headers of the file by the regular expression and index search of the code is shown equal to the list of columns of the samples that were added; the items are then compared with the model of __getitem__ (C93). With a bar in a node's name the array has the phase of a different node or is not built at all (refuted by an example). |
| C180 The normalised current of an EKV transistor solves the charge equation whatever was evaluated before | `EkvNewton` | The loop of scipy.optimize.newton is modelled in both forms it had. Proved for scipy 1.2 and later: what is returned is near the solution if the last iterate is not far below it (bound with the ratio of the charges), and a start at the solution returns it. Refuted: the start value 1 of new devices gives 10*EPS for all voltages from -1000 to -2, the start value 1e-10 of devices that were off ends after one step for all voltages from -10 to 100, evaluating twice gives two results, a new transistor below threshold passes no current. |
| C181 A diode with series resistance has a current for every voltage | `DiodeNewton` | The loop of scipy.optimize.newton is modelled. The function solved lies below its tangents where the exponentials are not cut off: what is returned is never above the solution and its distance from it is bounded by the tolerance (times the ratio of the slopes from below); from below the loop ends. Refuted for high voltages: every step is shorter than N*VT, so that 500 steps are not enough (all voltages from 15 V on for a default diode with 10 Ohm). |
| C182 Transient analysis keeps charges and fluxes that the circuit conserves | `Conserve` | the formulas of all methods are linear, so the history of a linear combination of the unknowns is the history computed by the same formula; if the combination of the equations contains only derivatives, the combination of the unknowns cannot change (generalises C144). Circuit level: node equations summed over a set of nodes, branch equations summed over a loop. Refuted for charges with Gmin, which is left in the matrices of the transient analysis. |
| C183 Transient analysis converges to the solution of the circuit's equations | `Converge` | scalar Taylor bounds for the local errors, Cauchy-Schwarz for the energy norm, one step never amplifies the error of the previous point (the energy argument of C124 applied to the difference of computed and exact solution), induction over the loop of Tran, and the forms of the assembled matrices for circuits with sources. |
| C184 References read back from result files are the saved results | `Refs` | Model of the columns written by AC and pole-zero results and of the reading of references; sorting of the names by code points; round trip for AC in radians, for singularities up to order, for other files; refuted for phases in degrees. |
| C185 Transient points of circuits with non-linear devices satisfy the equations up to the bend of the devices | `Nonlin` | C185_points: after a full Newton step the residual is what the tangents miss (C78, C13 for the step not being damped). C185_euler: energy estimate with the devices' monotonicity, residual weighed with the energy through cmin. C185_rest: without sources. C185_smooth: bound on the bend of a smooth law. C185_diodes: diodes have growing currents. Only implicit Euler: the trapezoidal rule is not contractive for non-linear circuits. |
| C186 Raising a source lowers no node voltage, and no node follows a source by more than it moves | `Raise` | The difference of the two operating points solves the equations of the circuit with the differences of the sources; weighed with its part below (above) the bound, all terms of the power balance have one sign. |
| C187 Implicit Euler never overshoots in RC circuits | `Overshoot` | each step is weighed with the part of the node voltages above (below) the bound; all terms have one sign, so that the part is zero; example with a step source and a two-section RC ladder, and a step of the trapezoidal rule that does overshoot |
| C188 Thevenin's theorem | `Thevenin` | the voltages with the load, less those without, less a multiple of the change caused by the test source, obey the laws of the circuit with all sources at zero, and are zero by regularity (C171); example with a dependent source |
| C189 Transients of one circuit approach each other | `Settle` | the superposition theorem of transients (C159) for the difference, the energy law (C124) of the circuit without sources |
| C190 Transient and AC analysis agree on sinusoids | `Phasor` | phasors give solutions in the sense of C183; the trapezoidal relation of sinusoids with warped frequency; sources row by row from C10 and C70 |
| C191 A reported operating point is near the exact one | `Accuracy` | Difference of the last iterate and the exact point solves a system with the residual on the right; maximum principle at the node with the largest difference; the same for the last increment with the conductances of the linearised devices; the damping factor is between 0 and 1. |
| C192 Circuits with devices whose currents grow continuously have an operating point | `Exist` | minimise the content of the circuit over the node voltages that satisfy the branch equations; the branch currents are the multipliers; uniqueness by monotony. For the default diode without series resistance the current jumps at 70 thermal voltages, so a circuit without operating point is exhibited. |
| C193 The table printed for an operating point | `OpTable` | model `attemptE`/`dcSolveE` with the residual returned, the report and the lines of the table; prove what the error column is for linear circuits (−gmin times the voltages of the previous iterate), the tolerance kept by it, the percentage; refute that exact values have the error zero and that percentages are meaningful for zero values. |
| C194 The short print-out of an operating point shows every variable once | `OpTable` | model the loop over the columns; prove by induction that the output is the list of variables with line breaks after every fifth. |
| C195 The methods of the periodic steady state analysis agree | `PssAgree` | N points of the shooting method and N + 1 points of the brute-force method describe the same cyclic equations: prove that both report their solution; prove the operating point for constant sources, also for non-linear circuits started there; refute the agreement for the same number of points. |
| C196 Periodic steady state analyses of passive circuits always succeed | `PssAgree` | a solution of the cyclic equations without sources dissipates no power over the period and keeps the stored energy, so it is an operating point without sources, that is zero; regularity of the matrices of both methods follows. |
| C197 Gear's formulas do not create energy | `GearEnergy` | second order: twice the initial energy, by the energy function of pairs of points; sixth order refuted with an inductance and a capacitance, by running the model for 40 points |
| C198 Parameters of transistor models are derived from the data of the process | `MosParam` | the constructor at the reference temperature, one statement for each parameter; body factor, threshold and their combination refuted |
| C199 The formula of a transient analysis is the one asked for | `TranFront` | Model the front of transient_analysis up to the loop, import_custom_df_module and the choice of the formula; compare with a table of documented names. |
| C200 The frame of a plot shows all of its curves | `PlotFrame` | Model the curves, label and limits over any ordered field with the drawing left out; prove label and limits by induction on the curves. |
| C201 The temperature of a simulation is the one of its devices | `Temp` | A world of one global temperature, devices and noted temperatures; induction on the history. |
| C202 The symbolic stamps of diodes and transistors are their small-signal stamps | `SymDev` | Symbolic stamps under a valuation, compared entry by entry with the folded numeric stamps of C45. |
| C203 Lines of user-defined elements give what their class returns and import each module once | `UserElem` | import and constructors as an arbitrary environment; parameters as a list without repeated names; invariant of the table of loaded modules over sequences of lines; nodes left behind shown by an example |
| C204 The operating point table of a switch shows its state, and switches sharing a model do not disturb each other | `SwitchInfo` | the attributes of the shared model as a state of its own; simulation between a run with all switches and one with a single one; invariant of the dictionary; stale table by an example with hysteresis |
| C205 Impedances and admittances of passive circuits | `Immittance` | The power balance of C140/C141 applied to the points of `ac_analysis` (model of C120, matrices of C05 and C98), with one driving source. |
| C206 Wrong element lines are reported as errors of the netlist | `LineErr` | `parseElem` of the model of C25/C84 returns `.error .parse` on these lines; counterexamples for numbers and `sffm`. |
| C207 A netlist and calls of the API with the same values make the same circuit | `NetApi` | Second halves of the element parsers (what they do with the circuit) against the models of `add_*` (C64, C76) and `add_inductor_coupling`; induction over the lines; with C167 for the round trip. |
| C208 Included files give what they give alone | `Include` | Model the list of files read while it grows with a map from names to contents and a bound on the number of files read; prove that one more file adds what it gives alone, independent of the numbers of lines and of the files before; a rank that falls along inclusions gives the end. Refuted parts: circles are read for ever, names are looked up in small letters, numbers of lines go on across files. |
| C209 Initial conditions in netlists reach the analyses that ask for them | `IcDir` | Model the loop over the words with the model of parse_param_value_from_string, dictionaries as association lists and _x0s as in the model of run; combine with the vector theorem of C39, generalised to labels in small letters. Refuted parts: names that are numbers, labels left over from earlier netlists, kind of error, names with underscores. |
| C210 The layout of a netlist does not matter | `Layout` | define the content of a file (the words of its joined lines, comments left out), prove by a second reader working on words that elements, models, directives, subcircuits and errors depend on the content only; then show that each change of layout keeps the content |
| C211 Printed spectra show every component, scaled to the largest one | `Spectrum` | model the numbers that go into the tables, specification of argmax, then row by row |
| C212 A symbolic analysis returns what sympy found, however it is started | `SymFront` | model the end of symbolic_analysis with the result of sympy.solve as input |
| C213 Reactances of lossless circuits increase with frequency | `Foster` | real and imaginary parts of the solutions at two frequencies give the difference of the reactances as a mixed energy; continuity of the solution gives the derivative, which is the stored energy; monotonicity from the sign of the derivative |
| C214 Results sent to the standard output | `Streams` | The world is the set of files, the lines on the standard output, and whether it is open. Writing in pieces is a fold; the contents are compared with an independent table; reading uses the round trip of C48. The name `-` closes the standard output after the first piece and nothing can be read back from it: both are refuted. |
| C215 A name is in a result set exactly if it can be looked up | `Member` | Lookups go through the file, membership through the list of variables; both are compared through the index of the name in the header line (C48, C93). Refuted for pole-zero results without zeros (C94) and for items of operating points whose node names differ in case only. |
| C216 Elements in parallel can be put together and elements can be turned round | `Parallel` | The loops of the assembly are compared with the elements replaced: exchange of a piece of a loop, indices of branches unchanged because none of the elements has one, equality of the stamps entry by entry. |
| C217 Circuits that are equivalent by the textbook have the same AC response | `AcEquiv` | phasor laws of C174 characterise the results; a replacement lemma for Kirchhoff's laws, then one equivalence each |
| C218 Transients of reciprocal circuits are reciprocal | `-` | [TranRecip, TrapRecip, AnyRecip] The points of a run satisfy a linear recurrence with symmetric matrices; sums over reflected indices are equal; impulse responses give the statement for one wave form. For the other formulas the response matrices are symmetric because the matrices of all passes belong to one pencil (induction over the passes of both runs). |
| C219 Messages depend on the verbosity in one way: unimportant ones are left out | `Messages` | The streams are lists of characters; one lemma gives what a message adds to each, the rest follows for lists of messages; digits are injective and contain no colon. |
| C220 Start of the shooting method | `ShootInit` | Model return_req_dict, dfbuffer.get_as_matrix and the slicing of shooting_analysis on top of the transient loop of Tran; invariant of the loop gives times and buffer contents; C220_matrix, C220_transient, C220_initial, C220_ends, C220_regular; the phase is refuted for the default 100 points (C220_phase_refuted) and holds if the steps of a period divide ten. |
| C221 Thevenin's theorem for AC analyses | `AcThevenin` | phasor laws of C174 are affine; loads act on the rest by one current; uniqueness of the reported phasors |
| C222 Parts of a circuit may be replaced by sources of the same current or voltage | `Subst` | Kirchhoff's laws of C171 and the port lemma of C188; uniqueness of what obeys the laws |
| C223 Tellegen's theorem | `Tellegen` | Kirchhoff's laws of C171 and C174 summed with the voltages |
| C224 Poles, zeros and DC gain of transfer functions of symbolic analyses | `SymTf` | Model of calculate_gains, get_roots and symbolic_solution.__str__ over complex polynomials; poles and zeros proved for reduced fractions, reconstruction for simple roots, refuted for multiple roots and for common factors. |
| C225 Header lines of result files | `Headers` | Model of write_headers over a world of files and a standard output; proved for a standard output that takes text, refuted for files and for the standard output of Python 3. |
| C226 A directive and a call of the API with the same values start the same analysis | `NewAn` | Model of the descriptions, of what main adds and of the call by keyword with the signatures of the analysis functions; equality of all parameters by analysis type. |
| C227 What an operating point analysis prints and writes | `OpReport` | Model of the end of op_analysis with lists of printed items, error lines and written files; case analysis; refuted where the verbosity or options.cli are not looked at. |

## Where the code and a property disagree

Each item is proved in Lean with a concrete witness (`..._refuted`); what does hold is proved beside it.

- **C03** `remove_elem` purges the sense nodes of controlled elements and the gates of transistors that still use them, keeps the output nodes of a removed device although nothing is connected to them, lets a later node take over a used number, and can stop half way with an `AttributeError`.
- **C06** a voltage source with both terminals on one node stamps that row twice over the same entry, and current is created.
- **C07** the stamp of the current-controlled voltage source has the sign of its transresistance reversed; a voltage-controlled source whose output and sense nodes coincide overwrites its own entries.
- **C13** the damping loop reads the last unknown (`dx[-1]`) for a port between ground and ground.
- **C16** source stepping stops at 90 % of the sources; a failed homotopy step is solved again with the stale system and may be accepted.
- **C17** up to 22 solves are made; with every method switched off a variable is read before assignment; with a small `options.gmin` the list of gmin factors is shorter than the index used (natural logarithm instead of base 10).
- **C18, C80** a sweep whose step does not divide the range passes `stop` by less than one step; a step wider than the range is refused; the source keeps the swept value if an operating point raises or if all points are skipped; a failure without skipping drops the points already found.
- **C64** a refused element leaves its new nodes in the circuit (except for capacitors, which are checked first).
- **C67** a current-controlled voltage source listed before its controlling branch makes the assembly raise `IndexError`.
- **C77** `debug` is not passed to `convergence_check`'s helpers and the per-node list is always empty.
- **C79** `nr_damp_first_iters` makes a linear circuit "converge" at 1 % of its first step.
- **C22** a step longer than the period, zero points or one point end in `ZeroDivisionError`/`TypeError`.
- **C24** cached device values survive changes of temperature, area or any other parameter; the series-resistance code of the diode evaluates the memoised conductance with `RS` temporarily zero and so stores it under the key of the real one.
- **C26** the starting point is not part of the result; the last time point can pass `tstop` by up to one step.
- **C27** `tstep = 0` is accepted and loops for ever.
- **C81** the truncation coefficient of implicit Euler is `0.5*h`, not `0.5*h**2`, so its error estimate is wrong by a factor that depends on the step.
- **C32** the delay of a pulse is repeated in every period (time is reduced modulo `per` before the delay is subtracted): pulses whose delay plus length exceed the period are cut, and a delay of a period or more suppresses the pulse entirely (`C32_late_refuted`, `C32_never_refuted`).
- **C33** outside its points a piece-wise linear source extrapolates the outermost segments instead of holding the end values (`C33_outside_refuted`).
- **C34** the exponential source leaves the interval between its two values when it falls faster than it rises (`C34_exp_between_refuted`).
- **C71** `convert_boolean` is case-sensitive (`C71_case_refuted`); netlist lines are lower-cased before they reach it.
- **C75** assigning zero to `value` or `g` of a resistor raises, but the zero is stored first, so a caller that handles the exception is left with an inconsistent pair (`C75_after_zero_refuted`).
- C83: the documented `.dc src=`, `.ac sweep_type=` (both in documented examples), `.pz source=`, `.pz zeros=` and
  `type=sin ... phase=` are refused as unknown parameters; `.pss` requires `points` even with `step`; `fc` of `sffm` may
  be omitted and is then `None`; `td` of `am` defaults to `None` instead of 0; the default sweep of `.ac` is
  logarithmic and `.symbolic` includes capacitors and inductors by default, against the documentation.
- C36: a text for `uic` raises `ValueError`, not `NetlistParseError`; the default of `autonomous` of `.pss` is the
  (true) string '0'.
- C37: `parse_circuit` appends a line end to lines read from standard input that already have one, so every second line
  is blank and no continuation line is ever joined there; in files, a continuation line after a blank line is not joined.
- C85: `join_lines` consumes continuation lines and a following blank line without counting them: later error messages
  report a too small line number.
- C60: printed lines of V/I sources with a DC value (`value=`), of switches (a seventh word) and of MOS transistors
  (`type=`) are refused by the parser; capacitors and inductors lose their initial condition in print.
- C86: a comment after `c1 1 0 1u ic=2` makes the initial condition disappear silently; comments after inductors and
  couplings are refused or raise `IndexError` depending on the number of words; after a time function with optional
  parameters left out, words of the comment are taken as parameters.
- C87: `OFF` of a diode is refused in every spelling (`TypeError`, `ValueError` or parse error); the documented `io`, `ia`
  of current sources are refused; `td` of `sffm` cannot be given by position; `SIN` current sources with optional
  parameters left out raise `IndexError` because the end of the line is tested with `==`.
- C38: local node names are joined with dashes without escaping: node `b-c` of instance `x1` of `a` and node `c` of
  instance `x1-a` of `b` are the same node, as is a caller node named `x1-a-b-c`; a port name without `=` on a call
  connects the port to a node with the empty name.
- C88: ids are renamed in instances but references (sources of F and H, inductors of K) are not: an F inside a subcircuit
  is controlled by the caller's source of that name, or fails if there is none; couplings inside subcircuits fail later.
- C41: `get_gm` of the switch lacks the factor of the output voltage: it is the derivative of the current for one volt
  only, and positive where the derivative is zero.
- C89: `_update_status` compares two resistances for equality, so switching relies on rounding of `tanh` to ±1: with exact
  arithmetic a switch with hysteresis never changes state, and in floating point there is a margin beyond `VT+VH`; `VON`,
  `VOFF` with negative sum give a negative hysteresis.
- C39: `modify_x0_for_ic` uses row `n-1` also for ground, i.e. the last row: a capacitor to ground is charged to its initial
  condition plus the last unknown (usually a source current), one from ground overwrites that unknown; initial conditions
  of zero are ignored; labels of `.ic`/`new_x0` accept only letters and digits in names of nodes.
- C42: `_get_i` adds `-IS*(exp(-(v+BV)/..)-1)` which tends to `+IS`, so with the default infinite `BV` the current at 0 V is
  `IS` and the reverse current is 0; `get_gm` has the breakdown term with the wrong sign and without `NBV`, ignores the
  knee current, and is not the slope of `_safe_exp` above 70, where the current also jumps; with `RS` the returned current
  is not multiplied by `AREA`.
- C90: `set_temperature` multiplies `RS` by `1+TRS*(T-T_previous)`, so `RS` depends on all temperatures set before; `VT`
  is computed at construction only.
- C43: a square-law transistor that is off carries `iea*vgs/VT/100` at equal drain and source voltages and its current jumps
  at the threshold; with `LAMBDA` times overdrive above 2 (4 V overdrive with the default) there is no ohmic region and the
  current at zero `vds` is not zero.
- C44: in saturation `get_gm` lacks the derivative of the correction term of `get_ids`, `get_gmb` has `+sqrt` where the
  threshold has `-sqrt`; `get_gmb` has an extra factor -1 for p-type and is 0 when off.
- C45: `self.T1*stamp*self.T2` in `mosq.gstamp` multiplies numpy arrays entry by entry: with drain and source exchanged the
  stamp has only the entries (d,s) and (s,d). `istamp` is not folded: terminals at one node take the current out of it. A
  device with all terminals grounded gives an empty index and a ValueError.
- C46: `_vsmall_obj` has the extra zero `x = v` for every `v <= 0`; `_vsmall_obj_prime` is not its slope below `EPS`.
- C47: `set_device_temperature` applies the change from `TNOM` to the values already changed.
- C91: `ekv_mos_model` takes type `N` for p; its default p-type threshold has the wrong sign; the default `TCV` is negated
  for p-type in both models, the threshold from `VFB` is not.
- C92: `get_gmg` calls `get_vp_nv_nq(vg)` without the sign of the type.
- C48: `load_csv(skip=n)` skips lines of the file and the header is one of them, so going on at the returned position repeats
  a sample; the end-of-file flag is false when more samples are asked for than are left; `get_headers` fails on a blank line.
- C50: a DC sweep of `V1` in a circuit with a node called `1` has two columns `V1`; only the sweep values can be read.
- C51: `_get_elements_op` reads the controlling voltage of a G source at its output nodes (and `x[-1]` for ground), takes
  the documented sign for H sources, does not count H sources in `i_index`, and accepts only V sources as controlling element
  of F sources.
- C93: with `options.ac_phase_in_deg` the phase is written in degrees and used in radians when read.
- C94: `pz_solution` fills `self.data` only if there are zeros; otherwise every access is an AttributeError.
- C53: in `run`, texts in `x0` of all remaining analyses are replaced after the first `op`, so a later `op` is not used by
  them (`C53_most_recent_refuted`); `run(circ, [])` runs the queue.
- C95: `_x0s` is never cleared: a netlist without `.op` silently uses the operating point of an earlier, different circuit.
- C96: `get_op_x0` returns `{'op': solution}`.
- C97: `parse_temp_directive` is not called by anything, `.temp` is an unknown directive, and `set_temperature(T)` would not
  accept the arguments that `run` passes.
- C58: `check_ground_paths` looks at the elements connected to each node only. A loop of resistors without connection to ground
  is accepted (`C58_floating_refuted`), a node with two resistors of opposite value is reported (`C58_cancel_refuted`), and
  the only consequence is a warning.
- C59: `check_circuit` does not look at paths to ground (`C59_floating_refuted`).
- C63: `remove_row(matrix, None)` raises TypeError, `remove_row_and_col(matrix, None, None)` returns None, a negative index
  duplicates rows.
- C98: the shooting method takes N points including both ends of the period and closes the recursion with x[-1] = x[N-1]. The
  solution repeats after N steps although the period is N - 1 steps (`C98_period_refuted`). The brute-force method closes the
  period properly (`C55_periodicity`).
- C99: `CMAT*x` is a matrix product for sparse matrices only; with numpy arrays (up to 400 unknowns) it is elementwise with
  broadcasting (`C99_dense_refuted`).
- Both PSS methods document that `autonomous` must be False; the parameter is never read. `shooting_analysis` ignores `x0`.
  The index lists of the brute-force convergence check hold floats, which current numpy refuses as indices.
- C56: `np=2.5` gives 2 points, fewer than asked for. With current numpy `f[:len(f)/2]`, the number of samples and the step of
  the slices are floats and raise TypeError; the model truncates them as numpy did at the time.
- C57: the destinations of `start` and `stop` are exchanged in `fourier.specs`; `alfa` of the manual is unknown, and the error
  message for unknown parameters itself raises KeyError (`fpv[type]`).
- C100: `specs` gives `np` the default 0, which `spicefft` turns into 2 points; the 1024 of the function is never used.
- C101: with `freq`, the samples are `2 n^2 + 1` in `n` periods but the axis is computed for `2 n^2`; the frequencies are off by
  the factor `2n^2/(2n^2+1)`, and `n` components are returned instead of ten.
- C102: `ps[int(np.ceil(len(ps)-1))]` is the last and smallest of the candidates.
- C105: with one period in the interval `F[1]` does not exist (IndexError).
- C106: the transform is printed without division by the number of samples.
- C108: `V(n,0)` is translated to a tuple of length one that `.plot` cannot unpack.
- C109: AC plots of `V(a,b)` show |Va| - |Vb|.
- C61: with `is_symbolic = False` a coupling is stamped with K instead of M, a VCCS has no `.value` and an inductor no `.L`
  (AttributeError).
- C62: the time-constant matrix of the pole-zero analysis ignores mutual inductances (`C62_mutual_inductance_refuted`).
- C110: the voltage of node 1 is the symbol `V1`, and so is the value of the source V1: the divider has the only solution 0.
- C111: substitutions are not applied to independent sources, VCCSs, couplings and to the `G` symbols of resistors.
- C114: `calculate_poles` subscripts a `pz_solution` with 0 (AttributeError) and ignores its arguments `MNA` and `x0`.
- C115: a capacitor across an ideal voltage source has `det(TCM) = 0` at every shift: endless recursion (RecursionError in
  practice). With `ROUT = 0` the shift 0 is multiplied by a random number: it stays 0. In exact arithmetic every circuit with fewer
  zeros than reactive elements repeats for ever, since `ZTCM` is singular at every shift; with floats rounding errors end it.
- **C116 (DC guess)**: `get_dc_guess` removes empty columns from the last to the first and re-inserts zeros in the same (descending) order. Each insertion at a low index shifts what was inserted before. Two diodes to ground at nodes 2 and 4 of a circuit with nodes 0..4 give the guess (0, 0.425, 0.425, 0): node 3 gets the voltage meant for node 4 (`C116_placement_refuted`).
- **C117 (ports of the DC guess)**: `port_index` is not advanced by `continue`, so with drain and source tied together the gate gets the guess for the drain (`C117_shorted_refuted`). A diode with `ic` stores a plain number in `dc_guess`; `elem.dc_guess[0]` raises `TypeError` and no operating point can be computed with guess (`C117_diode_ic_refuted`).
- **C118 (`--dc-guess none`)**: the option is a string, `options.dc_use_guess = "none"` is true (`C118_dc_guess_refuted`).
- **C119 (operating point without Gmin)**: when the circuit is singular without Gmin, `dc_solve` falls back to Gmin stepping, which ends at 1e-10 S (index 9 of -1, -2, ...), and `op_analysis` reports that point with `gmin = 0` instead of the solution with Gmin = 1e-12 (`C119_singular`, `C119_gmin_refuted`: 1 A into a capacitor gives 1e10 V).
- C121: when the matrix of a time step is singular, `dc_solve` falls back on Gmin stepping, whose last conductance is 1e-10 S; its result is recorded as a point of the transient analysis although it does not satisfy the equations.
- C122: with `use_step_control=False`, `max(max_x, max_dx)` (transient.py:259) compares a number with `None` for implicit Euler and Gear and raises `TypeError` under Python 3.
- C123: transient.py:310 sets the absolute tolerance of currents to `options.vea` (1e-6) instead of `options.iea` (1e-9).
- C125: the iteration limit is tested after the last point has been recorded, so an analysis that needs exactly `transient_max_time_iter` points is reported as failed although it is complete. Also, for `tstart == tstop` the loop body never runs and `if solved:` raises `UnboundLocalError`.
- C120: `ac_analysis(..., sweep_type=None)`, the documented default, raises `AttributeError` because `sweep_type.upper()` is evaluated before the test for `None` (ac.py:209); a start frequency of 0 is refused, but a linear sweep from a negative frequency through 0 is accepted. Gmin stepping inside AC adds no conductance at all, because the empty circuit passed to `dc_solve` has no node.
- C127: result sets are their own iterators; a loop nested in a loop over the same set resets the counter of the outer one, which then never ends (results.py:222-247). After `StopIteration` the counter is 0, so the next call starts again.
- C128: `calculate_gains` makes string keys (symbolic.py:240), which are kept in `_symbols`; `as_symbol` reads `x.name` of each and raises `AttributeError` for every set of transfer functions.
- C129: `np.squeeze(self.x).tolist()` (results.py:527) is a number instead of a list when the circuit has one unknown.
- C130: two analyses of the same type with the same `outfile` share one file; the first result set then reads the data of the second (results.py:121-124).
- C131: `print_spicefft` opens the `.lis` file with 'w', so only the table of the last `.FFT` directive of a netlist is left.
- C132: with output to stdout, the default of the command line, `load_csv` returns `None` for the data; every `.FOUR` and `.FFT` directive ends in `AttributeError`.
- C133: `plot_results` catches `ValueError` for missing variables, `solution.__getitem__` raises `KeyError`.
- C09: the condition |k| <= 1 is enough for each pair, not for several couplings: three inductors of 1 H coupled pairwise with -0.9 are accepted and have negative energy (`C09_triple_negative`). `C09_magnetic_energy` proves that the energy of all inductors is not negative when the factors of each inductor add up to at most one in absolute value.
- C136: TunnelJunction.py:218 divides the whole barrier difference by two, `(PHI_B - q*V)/2`; Simmons' formula has `PHI_B - q*V/2`. The junction behaves like one with half the barrier.
- C137, C138: as a consequence of the halved barrier the conductance is negative near V = PHI_B, and beyond it `sqrt` of a negative number is a `ValueError` (TunnelJunction.py:220).
- C132: a `.PLOT`, `.FOUR` or `.FFT` directive for an analysis that was not executed is a `KeyError` (ahkab.py:838-855), and the directives after it are lost.
- C83: the documented positional form `.PZ V(out) V1 1 0` (doc/help/Netlist-Syntax.rst) is refused: the fourth value has no position. With three values the third one is taken as the shift, not as the request for zeros (pz.py:75-100).
- C142: with coupled inductors and a non-zero `shift`, `.pz` reports a pole in the right half-plane for a passive circuit
  (two inductors of 1 H, M = 1/2, two resistors of 1 ohm, shift 4: pole +1), because the time-constant matrix is built
  from the self-inductances while the shifted matrix has the mutual ones (pz.py:205-265).
- C144: `op_analysis` removes Gmin from its result (dc_analysis.py:655-680) but `transient_analysis` passes Gmin to every `dc_solve` (transient.py:340-349), so an analysis started from the reported operating point drifts, if only by about Gmin times the node resistance.
- C146: `get_gm` of the diode subtracts the breakdown term instead of adding it (diode.py:404), so in breakdown the conductance is negative and the matrix of Newton's method can be singular although the current grows with the voltage (`C146_breakdown_refuted`).
- C147: controlled sources have no `get_op_info`, so the columns `P [W]` of a circuit that has them do not add up to zero (`C147_controlled_refuted`); the table of an element is chosen by the first letter of its name, which `add_resistor` and the other methods do not check, so a misnamed element gets a row that does not fit the head (`C147_letter_refuted`).
- C148: `has_duplicate_elem` compares names with case and `get_elem_by_name` without; a circuit with `R1` and `r1` passes the check but the second cannot be found (`C148_case_refuted`). The docstring of `get_elem_by_name` also says that `None` is returned when nothing is found.
- C149: `op_analysis` reports operating points without Gmin, `ac_analysis` keeps Gmin in its matrix, so the low-frequency response differs from the derivative of the reported point by a relative error of about Gmin times the node resistance (`C149_gmin_refuted`). A device whose conductance is exactly 0 gets 2*Gmin in the matrix.
- C150: the diode model adds `IS` to the Shockley equation through the reverse term (diode.py:387-395), so its current at 0 V is `IS` instead of 0. A diode in parallel to a resistor, without any source, has an operating point with a negative voltage and a heated resistor (`C150_diode_refuted`).
- C151: `get_ids` of the EKV model multiplies by `M` and `L/Leff` (ekv.py:600), `get_gmd`, `get_gms` and `get_gmg` do neither (ekv.py:672-701), so the conductances of M parallel transistors are those of one.
- C152: the current of a square-law transistor below threshold is `iea*(vgs+vds)/VT/100` (mosq.py:643); for vgs < -vds it flows against the voltage.
- C153: a misspelled parameter in a `.model` line raises `TypeError` (call of the constructor), not `NetlistParseError`
  (netlist_parser.py:346-357); `C153_misspelled_refuted`.
- C154: `diode_model.print_model` prints `TEMP` in Kelvin while the constructor expects Celsius (diode.py:326, 344), does
  not print `NBV` and `IKF`, and the default of `TEMP` is not converted to Kelvin; `C154_*_refuted`.
- C155: `update_status_dictionary` of the square-law transistor compares unmirrored, unexchanged voltages with the
  threshold (mosq.py:265-269), so a conducting p-type device is reported OFF, and uses a saturation limit without the
  LAMBDA correction of mosq.py:648; `C155_*_refuted`.
- C156: `gstamp` (mosq.py:382) compares the remembered voltages with `ports_v[0]`, a single voltage, and remembers only
  that; the information for three equal voltages may be stale; `C156_stale_refuted`.
- **C157**: the test for downward logarithmic sweeps compares `sweep_type` before it is converted to upper case: `LOG` ends the program by `sys.exit(1)`, `log` sweeps downwards. `new_dc` with one point, and any sweep with `start == stop` made by `new_dc`, raise `ZeroDivisionError`; the documentation says that `None` is returned for invalid values.
- C162: `update_status_dictionary` of the EKV device (ekv.py:215-221) compares the stored state, a tuple of scaled drain
  and source voltages and the gate voltage times the type, with the unscaled port voltages. Lists never compare equal, so
  everything is computed again (harmless); a tuple that happens to be equal gets the values of other voltages. Line 221
  has `==` where `=` is meant.
- C164: `print_analysis` (printing.py:133-165) prints `x0=` for an operating point, which is no parameter of `.op`;
  leaves out the initial state of `.tran`; prints nothing for ac, pss, pz and symbolic; and tests for a type `shooting`
  that no directive gives (a line `.shooting` would be refused).
- C113: the zeros of a circuit with mutual inductances are wrong as well: `ZTCM` is built from the self-inductances
  (`C113_mutual_refuted`: -1 twice instead of -2 and -2/3).
- C165: the EKV conductances are those of a long channel (ekv.py:672-701): the factor `L/Leq*M`, the reverse current's
  slower voltage (`Vds` is halved in line 647) and the dependence of `nq` on the gate voltage are in the current but not in
  the conductances; at the lower limit of the normalised currents the current is constant while the charge is not zero.
- C166: `KP` is not checked by `_self_check`; `set_device_temperature` can make `PHI` negative; `ekv_device.__init__` calls
  `get_ip_abs_err` before `_device_check`, so a length, width or multiplier of 0 gives a ZeroDivisionError; `int(M)` drops fractions.
- C167: `str(circ)` cannot be used as a netlist without loss: the title gets the prefix `* ` each time it is printed and read, models are not printed so devices are refused when the text is read, capital letters are lost (and, from C60, sources and transistors do not parse back).
- C168: the local error coefficient of implicit Euler is `0.5*h`, that of its predictor is proportional to `h*h`: the estimate, and so the step control, changes when the unit of time does (trap and gear are consistent).
- C169: `ac_analysis` keeps Gmin in the matrix of every frequency (op_analysis removes it), so phasors of high impedance circuits differ from those of the circuit itself; `options.gmin` and `options.cmin` do not scale with the circuit.
- C175: `NetlistTest._check` and `APITest._check` loop over the results only, and `None` (a failed analysis) passes. Columns equal to the abscissa are skipped. Comparison happens at the abscissae of the result, so a simulation that stops early passes. `APITest` looks at the first item of a tuple only. `_check_singularities` takes the first near pole and may refuse sets that can be paired.
- C176: with one reference missing, all references are replaced by the new results without comparison.
- C177: `tearDown` removes files before it restores the options, so a missing file leaves them changed. `APITest` sets its options in the constructor: two tests constructed before they are run see each other's options. Skipped tests raise AttributeError in `tearDown` (`ref_run` was never set). `outfile[:4] == '/tmp/'` is never true.
- C179: `ac_solution.asarray` finds the modulus columns by matching `\|(.*?)\|` against the header. With nodes `a` and `a|b` the header `|Va|b|` is read as `Va`, and the array pairs the modulus of `Va|b` with the phase of `Va`; if there is no node `a`, `asarray`, `values` and `items` raise `ValueError` although `res['Va|b']` works.
- C180: `get_ismall` starts from 1 for a new EKV device. For every normalised voltage from -1000 to -2 the first step leads to a negative current, where the objective is replaced by `x - v` but the derivative is the one at `10*EPS`, so the next step is below the tolerance and `10*EPS` is returned (at -2 the solution is above 0.1). A new transistor below threshold passes exactly no current. After such a result the next start is `1e-10`, from where the first step is below the tolerance for all voltages from -10 to 100: a transistor that is switched on has a normalised current below 1.3e-8 (solution above 1000) at the first evaluation. The same voltages evaluated twice give two different currents.
- C181: with a series resistance `get_i` starts Newton's method at `10*VT` (or the last value) and every step is shorter than `N*VT`. From 15 V on, a default diode with `RS=10` has no current: `newton` raises RuntimeError after 500 iterations.
- C182: Gmin stays in the matrices of every time step, so the charge of a floating node leaks away with the time constant C/Gmin; without Gmin (and for fluxes with any Gmin) the charge is kept exactly.
- C184: with `options.ac_phase_in_deg` the phases of AC files are written in degrees (results.py:621), while `_load_references` (testing.py:545) reads them as radians; `C184_deg_refuted`.
- C192: the current of a diode jumps by `700*IS` at 70 thermal voltages (`_safe_exp`). A resistor and a default diode in parallel fed with a current in the gap have no operating point at all, so `op_analysis` looks for a solution that does not exist; with series resistance there is always one.
- C193: the column "error" of the table of an operating point (results.py:325-337, dc_analysis.py:640-678) is the residual of the equations at the iterate before the last update of the last attempt, not an error of the value (`C193_values_refuted`: a voltage that is exactly 1 V is printed with an error). For linear circuits it is −gmin times the node voltages of the solution with Gmin (`C193_linear`). The percentage of a value that is zero is printed as 0 whatever the error is (`C193_zero_refuted`).
- C195: for the same number of points the two periodic steady state analyses disagree (`C195_same_points_refuted`): shooting.py takes the last point as the one before the first, although the step (utilities.py, `check_step_and_points`) makes the last point the first one of the next period. With one point less the shooting method agrees with the brute-force method (`C195_methods_agree`).
- C197: with Gear's formula of order 6 and equal steps of 2 s, a circuit of 1 H and 1 F without losses or sources has more than 100 times its initial energy after 40 points (`C197_gear6_refuted`); the model of the run is evaluated exactly. Order 2 keeps the energy below twice the initial one (`C197_gear2`).
- C198: `GAMMA` computed from `NSUB` is `sqrt(2 q eps NSUB / COX)` in place of `sqrt(2 q eps NSUB) / COX` (`C198_body_refuted`); `VTO` computed from `VFB` is `VFB + PHI + GAMMA PHI` in place of `VFB + PHI + GAMMA sqrt(PHI)` (`C198_threshold_refuted`); `VFB` together with `NSUB` raises TypeError, as the arguments are used and not the attributes (`C198_flatband_refuted`).
- C199: `options.default_tran_method` in lower case ends the program with status 23, as only the argument is put in upper case (`C199_default_refuted`); formulas of one's own can never be loaded, as `imp.load_module` is called with one argument below a bare `except` (`C199_custom_refuted`); fixed steps (`use_step_control=False`) raise TypeError with Euler's and Gear's formulas (`C199_fixed_refuted`); matrices of different sizes end the program with status 0 (`C199_status_refuted`).
- C200: `plot_results` labels angles (`arg(Vx)`) with the unit of the variable, e.g. volts (`C200_angle_refuted`), and raises TypeError (`None - None`) if there is nothing to plot (`C200_none_refuted`).
- C201: `set_temperature` has no effect on devices and models that exist: they copy `constants.T` when they are made (`C201_follow_refuted`). As a netlist makes all devices before its analyses are run, and as results note `constants.T`, they can say "At 373.15 K" for a circuit at 300 K (`C201_noted_refuted`).
- C202: the symbolic stamp of a transistor (symbolic.py:429-447) has no transconductance of the bulk, whatever the connection (`C202_bulk_refuted`), and the symbol `R0_M1` of the output resistance of `M1` is the symbol of a resistor of that name (`C202_shared_refuted`).
- C203 (netlist_parser.py:1161-1174): `parse_elem_user_defined` adds both nodes to the circuit before it calls the constructor and the element's own check; a refused element leaves nodes to which nothing is connected. Names of modules or classes that read as numbers (`module=1`) are converted to floats, and `in`/`getattr` raise TypeError.
- C204 (switch.py:192, switch.py:365): `update_status_dictionary` compares voltages only, so a switch with hysteresis that closed in between is still listed as open, with its open resistance. `get_dc_guess` returns 0.9·VT or 1.1·VT: for negative VT this lies on the other side of the threshold, and the first evaluation inverts the state given in the netlist.
- C206 (netlist_parser.py): values of elements are read by `convert_units`, whose ValueError is not turned into NetlistParseError (`C206_value_refuted`); `sffm` has six parameters but only five words are taken for it (`C206_words_refuted`).
- C207: `parse_elem_capacitor` takes a capacitor of zero farad, `add_capacitor` raises CircuitError; `add_switch` takes any model, `parse_elem_switch` only models of switches (`C207_capacitor_refuted`, `C207_switch_refuted`).
- C208: `.include` of a file that includes itself, directly or through others, appends to the list of files being read for ever (netlist_parser.py:183, 231-235). Lines are lower-cased before the name is taken, so files with capital letters in their names are not found (line 191). The line numbers in errors go on from one file to the next instead of starting again, and the file is not named.
- C209: `.ic name=1` stores the vector under the number 1.0, while `ic_label=1` looks up the text `1` and raises ValueError (netlist_parser.py:1681, ahkab.py:969). `_x0s` is a global that `main` never clears, so a label not defined in a netlist is taken from the netlist read before, whatever the size of its circuit. Values that are no numbers raise ValueError instead of NetlistParseError.
- C210: a comment line (or an empty line) between a line and its continuation takes the continuation away: the `+` line is joined to the comment, so `r1 1 0` / `* one kiloohm` / `+ 1k` is an error although the same netlist without the comment is read (`C210_comments_refuted`, netlist_parser.py:1815-1836).
- C211: the reference ("carrier") of .FOUR and .FFT tables is the component of largest magnitude, the mean value included, so a signal with a large mean is normalised to its mean (`C211_carrier_refuted`); a silent signal gets nan (`C211_silent_refuted`); `options.WINDOWS_NAMES` calls Blackman's window BLACKMAN-HARRIS and the window of Blackman and Harris HARRIS (`C211_window_refuted`, options.py:206-209 against fourier.py:269-278).
- C212: `print_symbolic_results` and `print_symbolic_transfer_functions` sort with a comparison function, which is a TypeError in Python 3, so that no symbolic analysis started from the command line gives its results (`C212_cli_refuted`); for equations without solution `sympy.solve` returns a list and `sol.keys()` raises before the warning (`C212_unsolved_refuted`).
- C214: `_close_fp` (csvlib.py:140-148) exempts only the name `stdout` from being closed, while `_get_fp` (csvlib.py:128-137) also takes `-` for the standard output. The first piece of results written under the name `-` closes the standard output of the program; the second raises `ValueError`. Results written to the standard output (the default of all analyses) cannot be used afterwards: `load_csv` returns `None` for the data and `solution.__getitem__` raises `AttributeError`.
- C215: `pz_solution` (results.py:1186-1200) sets `data` only if there are zeros, but `in`, `keys`, `values`, `items` and lookups use it always; `len` (inherited) counts the poles. Operating points keep the voltages of the nodes `a` and `A` under names that differ in case only or not at all (results.py:279), so `items()` and lookups disagree.
- C202: with `options.symb_formulate_with_gs` a substitution of the output resistance of a transistor (`r0_M1`) is turned into one of a conductance (`GXXX0_M1`), a symbol that no stamp uses, so it is silently not made (`C202_substitution_refuted`).
- C217: `options.cmin` (1e-18 F by default) is put from every node to the reference in AC analyses, so splitting an element into two in series changes the response, if only slightly (`C217_cmin_refuted`).
- C219: `printoptions` restores the settings of numpy after `yield` without `try`/`finally`, so an exception while printing leaves the precision of the simulator set for the rest of the program (`C219_settings_refuted`).
- C220: the start of the shooting method is out of phase: point i is the transient's state at (9N+i+1) steps, while the period is N-1 steps, so that it is ten steps late modulo the period (`C220_phase_refuted`, default of 100 points). This changes the start of the iteration only. `transient_analysis` with tstop = tstart raises (`C220_no_time`: division by the number of steps in a message), and `return_req_dict={"points": 0}` never returns a result (`C220_none`).
- C224: `get_roots` (symbolic.py:573-577) takes poles and zeros from `sympy.solve`, which lists every root once: the order of a pole is lost, and 1/(1+s)² is reported with the poles of 1/(1+s). `sympy.together` does not cancel common factors, so that a cancelled mode is reported as a pole and as a zero (`C224_factored_refuted`, `C224_common_refuted`).
- C225: `csvlib.write_headers` (csvlib.py:103-124) opens the file with mode `"wb"` and writes `str`: it raises `TypeError` for every file, after having emptied it (`C225_file_refuted`); the same with the standard output of Python 3, which is used through `sys.stdout.buffer` (`C225_buffer_refuted`).
- C226: `new_dc` computes the step from the number of points and cannot describe the sweep of one point that `.dc src 5 5 1` does (`C226_dc_refuted`); `new_pss` has no parameter `step`, which both methods and the directive have (`C226_step_refuted`). Without further parameters the interfaces differ: `.tran` starts from zero (`uic=0`) and `new_tran` from the operating point, `.pss` uses the shooting method and `new_pss` the brute-force one, and `.ac` gives no `x0` where `new_ac` asks for the operating point (`C226_defaults_refuted`).
- C227: `print_result_check` prints its warning at every verbosity, so results sent to `stdout` start with it (`C227_stdout_refuted`); the report of a solution that depends on Gmin is printed twice at the default verbosity (`C227_twice_refuted`); with `options.cli = False` ("no printing") each operating point prints a line, and `outfile='stdout'` prints no results (`C227_library_refuted`, `C227_lost_refuted`); the temporary file `*.opinfo` is never removed (`C227_left_refuted`).
- C203: `Circuit.add_user_defined` looks up `module_name`, `circuit` and `imp`, which are not defined in `circuit.py`; every call raises NameError (`C203_api_refuted`).
