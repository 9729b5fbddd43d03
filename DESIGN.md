# Formal model of signal-temporal-logic in Lean 4

Source: `/repo` (C++17). Everything here is proved about a hand-written Lean model
of that source; the code itself is never run. Each definition of the model cites the
file and lines it models.

## 1. Layout

| Path (under `lean/Verif/`) | Content |
|---|---|
| `Model/Num.lean`      | `D K`: doubles as an ordered field plus `+inf`, `-inf`, `NaN`, with a *parametric rounding* `Arith.rnd` |
| `Model/Outcome.lean`  | `Outcome`: `ok`, `throw` (C++ exception), `ub` (undefined behaviour), `abort` (failed `assert`) |
| `Model/Signal.lean`   | `signal.hpp`, `signal.cc` |
| `Model/Wedge.lean`    | `mono_wedge.h`, `std::lower_bound` |
| `Model/MinMax.lean`   | `minmax.cc` |
| `Model/Ast.lean`      | `ast.hpp`, `ast.cc` |
| `Model/Robustness.lean` | `classic_robustness.cc` |
| `Model/Parser.lean`   | `grammar.hpp`, `actions.hpp`, `parser.cc` |
| `Model/Fmt.lean`      | `fmt.hpp` |
| `Model/Python.lean`   | `pysignal.cc`, `pyrobustness.cc` |
| `Model/Cost.lean`     | `compute` of `classic_robustness.cc` with a count of its calls |
| `Model/WedgeCost.lean` | `mono_wedge.h` with a count of comparisons |
| `Model/WedgeMachine.lean` | `mono_wedge.h` with 64-bit unsigned arithmetic |
| `Model/ParserCost.lean` | the rules of `Model/Parser.lean` with a count of the characters examined |
| `Model/EvalCost.lean`, `Model/Search.lean` | evaluation with a count of its rounds; `std::lower_bound` step by step |
| `Model/ParserMessages.lean` | the parser with the messages of `error_messages.hpp` |
| `Model/Heap.lean` | signals, minima and maxima and evaluation with pointers into a memory |
| `Model/SignedZero.lean` | signals, minima and maxima and evaluation with signed zeros |
| `Model/Utils.lean` | `utils.hpp` |
| `Spec/*.lean`         | specifications, independent of the model (piecewise linear functions, STL semantics, concrete syntax) |
| `Proofs/*.lean`       | helper lemmas |
| `Props/*.lean`        | the property theorems, with non-vacuity examples |

## 2. Modelling decisions

* **Numbers.** A double is `fin q | pinf | ninf | nan` with `q` in a linearly ordered
  field `K`. Every operation with finite operands and an inexact result is
  `rnd (exact result)` for an arbitrary function `rnd : K → D K` (it may round and
  overflow). Theorems therefore come in two strengths:
  * for *every* `rnd` (or every sign-symmetric one): these hold for IEEE arithmetic too;
  * under `ExactArith` (`rnd q = fin q`): "ideal arithmetic", stated where the property is
    about exact values. `Model/Binary64.lean` defines IEEE binary64
    round-to-nearest-even as one concrete `rnd`, for counterexamples that depend on rounding.
  * One zero: `x/±0` is taken as `x/+0`.  C113, with the model of Model/SignedZero.lean, says what this leaves out.
    Printing distinguishes the zeros (`-0`); that is not modelled.  Not modelled: x87/FMA effects.
* **Undefined behaviour** (dereferencing `end()`, `prev(begin())`, `front()`/`back()` of an
  empty container) is the separate outcome `ub`.
* **assert** is modelled with a flag `ndebug`; with `ndebug = false` (the CMake default
  build type is Debug) a failed assertion is the outcome `abort`.
* `shared_ptr`s are values (no aliasing, never null), justified by C111 with the model of Model/Heap.lean, where they are
  pointers; `std::map` is an association list.
* `std::lower_bound` is an actual binary search; that it finds the partition point is proved.
* Loops are structural recursions over lists; the parser uses fuel, and it is proved that the
  fuel never runs out (termination).

## 3. Per property: what is modelled, how it is proved

C01-C03 push_back as a step function; invariant by induction over histories of calls.
C04, C05 constructors as folds of push_back; closed form `build` of a fold.
C06-C10 `at`, `begin_at`, `end_at` with `lower_bound`; C07, C08, C10 are false of the
  code: refuted by witnesses, exact behaviour proved as `_partial`.
C11-C13 simplify: invariant of the loop; C13 is false (slope of the last kept sample is always 0).
C14 resize: false; full characterisation of when it returns and what.
C15 shift: closed form and function equality.
C16-C19 synchronize: loop invariant on the merge; C16 is false: exact success condition proved.
C20-C24 predicates, not, pairwise and n-ary min/max against `Spec.eval` at all real times.
C25, C29, C21 relational induction over formulas with negated values.
C26-C28, C30 suffix max/min; C28 is false: one-sided bound proved.
C31-C33 false (`Interval::has_value` is inverted, Until formula is wrong): refutations plus the
  exact behaviour (interval is ignored, closed form of Until).
C34-C36, C38-C42 induction over formulas.
C37 false because of NaN: refuted, partial.
C43 false: binary64 witness.
C44-C49 Boolean semantics of expressions, arity invariant, flattening; C46, C49 are false in corner cases.
C50, C51 wedge invariant; windowed min/max is false: exact outcome for every finite signal and 0 < a < b (min = max).
C52-C58 parser: PEG with state and global failures; C57, C58 are false.
C59 printing formulas: false; witnesses, and exactly which parsed formulas print the same. C60 printing signals: injective.
C61, C62 invariant "exact at the samples, and the semantics is the interpolation or monotone in between";
  perturbation lemma of the dense-time semantics.
C63-C65 for every rounding: invariants of the pairwise loop on times, values and lengths; no arithmetic is
  used but "zero is not rounded" and "rounding never yields NaN" (`Spec.SaneArith`, proved of binary64).

C66 false for three operands (witness); two operands proved; for any number, exactly when the assertion fails. C67 the pairwise loop on equal signals copies the
  first. C68 false between samples (witness); proved at samples from C61.
C69 change of units: the maps of times, durations, values and slopes commute with every function
  (`SMap` in `Proofs/Equiv.lean`, also used for C25, C29 and C41).
C70 false between samples (witness); the start value from C62 with distance 0. C71, C72 geometry of samples:
  interval integral of Mathlib, field arithmetic. C73 case analysis; traces with one sample tell predicates apart.
C74 copies of the wedge functions that count comparisons, proved to compute the same; potential = size of the wedge.
C75 induction on the formula: cutting the operands at a common sample time cuts the result; false with constants.
C76 false for nested temporal operators (witness); for the formulas of C61 it follows from exactness at the start
and monotony of the semantics. C77 induction on the formula; the minimum and maximum over the trace commute.
C78 a semantics is defined on the written syntax (Spec/Meaning.lean) and shown to be that of the parsed expression by
induction on the commands, starting from the round trip C53; composed with C61 and C36. C79 false for nested
temporal operators (witness); for the formulas of C61 it follows from exactness at the start.
C80 And and Or keep every sample time of their operands, so the largest step between neighbours never grows; the
interpolation of a running extremum is off by at most a quarter of the largest step (the crossing of a falling segment
with a later value), and suprema do not enlarge errors. C81 adds the interpolation error of the signals themselves.
C82 the grammar of Spec/Grammar.lean, with an evaluation; forward by running the rules on the tokens, backward by
inverting every combinator and collecting the tokens read.
C83 the attributes by name; the sequence protocol against the list of samples; C84 the definition of a strict weak order;
C85 an instrumented copy of `compute` (Model/Cost.lean), proved to have the same results and to make one call per node;
the family z, (and z z), (and zz zz), ... against the language of C53, the upper bounds through the grammar of C82.
C86 rounding is monotone and odd, so it commutes with minimum, maximum and negation, and every sample is the rounding
of one exact difference; gradual underflow keeps differences of different doubles away from zero.
C87 terms of negation, minimum and maximum (`Spec/Poly.lean`) are evaluated exactly, by C21 and C24; constant
signals distinguish any two terms that differ for some numbers. Only for finite signals with a common start.
C88 the timestamps of synchronised signals (C17) and of the loop of `compute_minmax_pair`, by induction on the formula;
for the crossings every instant the loop inserts lies strictly between two samples and solves the equation of two lines.
C89 the explicit points of Eventually and Always (C26, C27) and C88: a function whose breakpoints are among the samples
of another one is below it if it is so at the samples.
C90 the backward loop of compute_until as a right fold over the synchronised samples; the synchronised constant has the
timestamps of the operand and NaN at the inner ones (C37).
C91 the loops of the two orders are simulated in lockstep; at a tie no crossing is inserted in exact arithmetic.
C92 every rule commutes with the removal of superfluous layout if it starts with a token, and then it ends before one;
by induction over the rules of the grammar.
C93 the loop of synchronize appends equal timestamps to both results and the final steps equalise their ends, whatever
the samples are; the other functions are followed line by line with a predicate on outcomes (no abort, listed exceptions).
C94 false: refuted by short texts. What is left (the exceptions, debug against release) by induction over the rules,
comparing the outcomes of the two builds rule by rule.
C95: every computed value is a sum, an infinity, NaN or the negation of one, so `v - 0 = v` for a rounding that is
idempotent and odd; the result lies within the range of the trace, so the constants do not change; then induction over the formula.
C96: on the meaning of the accepted language (C82): a term depends only on the formulas that it refers to.
C97: adding `d` to all values commutes with every step of the evaluation except the negated maximum in Until (the maps
of samples of C41 and C69); for different amounts the quantitative semantics moves by between `lo` and `hi`, and the
first sample is exact (C61).
C98: each rounding of a moderate number (a multiple of 2^-150 of magnitude up to 2^100) has relative error at most
2^-53 (`Proofs/RelErr`); the errors of the slopes, of the numerator and denominator of `time_intersect` and of the
interpolated value are added up on one segment (`Proofs/Accuracy`), and the loop is followed segment by segment.
Maximum and minimum are treated together (`Side`), because `time_intersect` is not symmetric under negation when
the computed slopes are equal.
C99: the error of C98 is carried to the dense-time robustness over the reals. Negation, supremum and infimum do
not increase a distance between functions (`Proofs/Margin`), and a bound that holds at all rationals holds at all
reals because the interpolants are continuous (`Proofs/EvalReal`).
C100: two different decimal numbers with at most 15 significant digits differ by at least `10^-15` of the larger
one, which is more than two rounding errors of relative size `2^-53`. That `std::stod` rounds correctly is part of the
model (`stod` in `Model/Parser`), as for glibc.
C101: rounding is monotone and keeps doubles and the sign, so reading a threshold never moves it across a sample
value; hence the sign of a predicate computed in binary64 at a sample is the sign with the written decimal or 0.
Not, Always and Eventually only select sample values, and And/Or are exact at common samples (C64); the classification
of terms by `layer` follows definitions as the parser does.
C102: `Obtainable` is the closure under the public calls; false because of `shift` in binary64. C103: `shift` in ideal
arithmetic is a map of signals (`SMap`) with which every function commutes; closed form of `resize`.
C104: the fold of `minmax_seq` for `max` and `min`. C105: values of what `&`, `|`, `~` build, by the possible forms of
the result (merged or not), from C21, C24 and C34.
C106: `Model/WedgeMachine.lean` uses `UInt64`; a decrement at `begin()` and a shift by 64 or more are undefined
behaviour there; proved equal to `Model/Wedge.lean` for fewer than 2^63 elements. C107: a copy of the grammar that
counts (`Model/ParserCost.lean`), proved to have the same results; each rule pays for its failures out of the characters
that it, or the rule before it, consumes (`Lin` in Proofs/ParserCost.lean). Not counted: actions, which copy pointers and
search the maps, and the handling of line numbers by PEGTL.
C108: on an interval before each instant a Boolean combination is one of its literals (predicates and temporal
subformulas, negated or not), so every sample is a sample of a literal or a crossing of two (`Cells` in
Proofs/Cells.lean); in ideal arithmetic only, because rounded crossings can fall on either side of a sample.
C109: Model/EvalCost.lean repeats the evaluation with a counter (`Steps`: an outcome and a number), which is proved
to change no outcome.  Counted are loop rounds, elements moved by `std::reverse`/`std::transform`, comparisons of
`std::lower_bound` and calls of `compute`; not counted are the search in the trace and the time of one addition.
C110: Model/ParserMessages.lean repeats the parser with the message of a parse error and two places (where the rule began
that had to match, where the parser stood), which is proved to change nothing else.  Spec/Messages.lean says for each
message what it claims about the text; `Sound` of a message that never appears is `False`.  That a rule leaves the
input where its last alternative failed unless it has to go back is PEGTL's documented behaviour, not code of /repo.
C111, C112: Model/Heap.lean repeats signals, minima and maxima, synchronization and evaluation with `SignalPtr`s as
indices into a memory (a list of signals, objects are never freed: `shared_ptr` keeps them alive) or null; every loop over
a signal re-checks before each step that the vector it walks over is what it was (`still`), otherwise the step is
undefined behaviour.  The theorems compare this with the model of values.  A pointer outside the memory counts as null.
C113: Model/SignedZero.lean repeats signals, minima and maxima and evaluation with a sign bit for zeros.  The theorems
compare this with the model with one zero.  The one difference is And: if the slopes underflow so that the divisor of
`time_intersect` is `-0.0`, And throws where the model with one zero returns.  Theorems about returned signals hold
either way (C113_returned).  The theorem that characterises when And throws for any rounding, C43_late_partial, is about
one zero: with signed zeros And throws in these further cases.
C114: which traces a formula can be evaluated on without undefined behaviour, by a condition on pairs of its signals.
It generalises C34 (same begin time) and lifts C16 (two signals) to formulas.
C115, C116: the grammar as data (`Model/Peg.lean`). `Peg.rules` lists every struct of grammar.hpp with its line, so that
it can be compared with the source side by side; `Peg.actions` is the table of the templates `action<...>`; `Grammar.run`
interprets the PEG combinators. C115 proves that this machine and the parser functions of `Model/Parser.lean` are the same,
so every property of the parser is one of the grammar as written. C116 is about termination in general. PEGTL itself is
not in the sandbox: its combinators are modelled after its documentation, and `Grammar.issues` after the published idea
of `analyze`, not its code.
C117: the same machine with a stack of limited depth (`Model/PegStack.lean`); the loops of PEGTL do not use the stack.
A unit of depth is an open rule or combinator, not a C++ frame, so the constants 144 and 10 are those of the model.
C121: `Grammar.calls` (`Model/PegTime.lean`) counts the rules that this machine tries.  The bound comes from a static
analysis (`infer` in `Proofs/PegTime.lean`), proved sound for every grammar, and from three rules done by hand
(`Identifier`, `Numeral`, `PredicateForm`), which fail after having read a lot.  Not counted are the actions, among them the
lookup and copying of formulas, and the characters that a keyword is compared with.
C122, C123: `Model/File.lean` has `from_file`, `trace_from_file` and the program `examples/basic_parsing.cc`.  A file system
is a function from paths to contents; `file_input`, `line_at` and `std::setw` are modelled by their documentation.  A
character is a byte, so the caret is in the right column of a terminal if the line before it is printable ASCII.
C124: `Model/PyAst.lean` has the attributes and operators of `pyast.cc`, as if the lines that do not fit `ast.hpp` (see
section 4) were left out.  That `c < p < d` means `(c < p) and (p < d)`, that `c < p` calls `p > c`, and that an object
without `__bool__` is true, are rules of Python.
C125 turns C119 into total correctness: if the operands differ by more than the error bound of C119 at the timestamps, no
computed crossing is late, so nothing is thrown.  `C125_margin` has operands with a smaller difference that throw.
C126 does for `simplify()` and `area()` (C11, C12, C71) what C119 does for And and Or.  `simplify()` compares stored slopes
for equality; in binary64 the comparison of values and slopes implies equal values (`B64.flat_value`), so that only underflow
of a slope can change the function.
C127 evaluates the same formula on the same trace with `B64` and with exact `ℚ` side by side (`Proofs/UntilLock.lean`).
Without And and Or no crossing is computed, so the only rounded operations are those of predicates and of the interpolation
in `synchronize`; success depends on timestamps only, which are never rounded.  For And and Or see C119, C120 and C125.
C128 says what is left of the meaning of Until although its value is wrong (C32): it is never too small at a sample, because
the code takes the greatest of several values and the terms of the discrete semantics are among them.  On a common time
grid this bounds the dense semantics also between samples (`Proofs/OneSided.lean`: a witness between two samples is
bounded by the values at both), which carries the induction through nested operators.
C129 does without the common time grid for a single level of Until: below the Until the dense upper bounds of C40 are
used instead of an induction over samples.
C130 connects the kinds of numbers of the model.  The maps of samples of `Proofs/Equiv.lean` go from one field to another
one, so evaluation commutes with the inclusion of the rational into the real numbers for all formulas and all traces;
`Proofs/TransferReal.lean` uses this to state theorems about real-valued traces for rational ones, where the result can be
computed.
C131 says what the code computes for every formula: `actual` (Spec/Actual.lean) is a translation of formulas, and the
computed robustness is that of the translated formula up to the sampling error.  Spec/Semantics.lean has Until with a
closed interval for the first operand; the loop of the code leaves out the last sample, so the translation has the second
operand as a separate disjunct.
C132 adds the rounding errors of C127 to the sampling error of C131: it compares doubles with the dense-time semantics.
C133 is the binary64 version of the one-sided verdicts of C39, C40 and C129 on formulas with intervals.
C134 compares two formulas: it makes the exactness and error theorems usable for rewriting specifications.
C135 compares two traces: it bounds the deviations that make C70 and C76 false.
C137 does the same for C79 and says what a computed value means for signals that still go on.
C138 puts C132 and C137 together: from measured real signals to verdicts on them and their futures.
C139 starts from the text of a specification: C80, C81 and C137 for what is written, with operators nested in any way.
C140 does the same for C131: it says what is computed for a text with Until, and that this is not what is written.
C136: `Model/Utils.lean` has `enumerate` and `reversed` of `utils.hpp`, which the library does not use, and the range-based
`for` over ranges with abstract iterators; references are positions.
C118: line and column as PEGTL 3 tracks them (`Model/Position.lean`), from its documentation.  How far the parser looks
ahead is stated by comparing texts (`SameAhead`), not by counting what it reads.
C119 extends C98 to operands with different timestamps.  The numbers it admits (`Mild`) are a smaller range than those
of C98, because the interpolated values are operands of a second interpolation.
C120 assumes its numbers `V`, `H` and `d` of the signals computed for the operands (`Feeds`), not only of the trace: two
crossings can be arbitrarily close to each other, so the trace alone does not bound `d`.

`lean/Verif/Tests/` runs the tests and examples of /repo on the model. These are tests of the model, no
claim rests on them.

### Parser model

`Model/Parser.lean` is a PEG interpreter for `grammar.hpp` with the state of `actions.hpp`. A rule returns
"no match", "match" with the rest of the input, or an outcome that ends the parse. A local failure restores
the input but not the state of `actions.hpp`, as in the code. Simplifications:
* `char` is a Lean `Char` (bytes above 127 are characters that no rule mentions), no locale;
* one exception kind per C++ class; the texts and places of parse errors are in Model/ParserMessages.lean (C110), places
  as what is left of the text; `Model/Position.lean` turns them into line and column; the texts of other exceptions are left out;
* `strtod`'s range error for underflow is implementation-defined, so it is a parameter (`Strtod`);
* nesting depth is unlimited; how much stack it takes is C117.
The syntax trees and texts of `Spec/Syntax.lean` are written from the documentation in the grammar file and
know nothing of the interpreter.

### Properties that are false of the code

| Property | Witness | What is proved instead |
|---|---|---|
| C07 | at() between samples extrapolates the *next* segment backwards | right at samples; exact value between |
| C08 | at() after the end is undefined behaviour | never throws; exact behaviour |
| C10 | end_at() before the end is undefined behaviour | right from the end on |
| C13 | simplify keeps the interior points of sloped lines | exactly the interior points of constant stretches are dropped |
| C14 | resize throws or fills wrongly | exactly when it works, and the outcome otherwise |
| C16 | synchronize throws on some overlapping signals | exact success condition |
| C28 | Eventually/Always between samples | one-sided bounds, exact segments |
| C31, C33 | intervals are ignored | exact behaviour |
| C32 | the Until formula | what is computed instead, exactly; upper bound at samples |
| C37 | constants as first operand give NaN | values at the ends |
| C43 | rounding makes And/Or throw | exact condition (a computed crossing is late) for every rounding; in binary64 a margin at the timestamps that excludes it (also C125) |
| C46 | `And & false` throws | exactly when each function throws |
| C49 | integer and NaN interval bounds are not checked | valid for all non-NaN doubles |
| C51 | windowed min/max: undefined behaviour, wrong values | first loop is right; exact outcome for `0 < a < b`: it returns only if one sample is after `begin + (b - a)`, and then min and max agree |
| C57 | `(> 1 x)` throws bad_optional_access | always rejected |
| C58 | `(not p always p)` is accepted, `(p)` is rejected | only the last expression counts |
| C59 | intervals are not printed, Until has no parentheses, names are not quoted | for plain names and all intervals (so for all parsed formulas): exactly which formulas have the same text; injective without Until for unbounded intervals |
| C66 | the minimum of two signals has a crossing the third has not | at most two operands; any number if no intermediate result gains a timestamp (both builds); debug builds: abort exactly if one does |
| C68 | Eventually between samples is positive too long | right at samples |
| C70 | F(x >= 0) between samples depends on the sampling | start value, formulas without temporal operators |
| C76 | G(F(p or q) or r): raising q lowers the start value from 10/3 to 2 | formulas whose start value is exact; formulas without temporal operators |
| C79 | G(G((G p and s) or q) or r): one more sample raises the start value from -1/38 to 3/26 | safety formulas whose start value is exact |
| C83 | `derivative` of a Python Sample is its value | right iff derivative = value; the sequence protocol; construction |
| C84 | NaN is `<=` and `>=` everything; incomparability is not transitive | samples without NaN |
| C85 | each definition uses the preceding one twice: 2^(n+1)-1 calls | at most 4^length; linear without references, iff and xor |
| C89 | between two samples G(p and q) is above or below (G p and G q) | comparison at samples, equality at common timestamps, one-sided laws at all instants |
| C90 | true U p is not F p, false U p is not p, p U true and p U false are the same signal (+inf, NaN, ..., +inf) | exact values of all four forms |
| C91 | a tie in binary64 adds a sample in one order only; with three operands the samples depend on the order even without rounding | no ties: every rounding; two operands: exact arithmetic |
| C94 | `()`, undefined names, large numbers, reversed predicates and some exclusive ors are rejected by other exceptions; `(p not p)` fails an assertion in debug builds only | the five exceptions; builds agree up to assertions; documented texts: builds agree |
| C102 | `shift(1)` of samples at 0 and 2^-60 gives two samples at time 1 in binary64 | all other members for every rounding; everything in ideal arithmetic; spacing condition for `shift` |
| C123 | `(define-formula p q)` in a file terminates the example program by an uncaught exception | exactly how it ends otherwise |
| C124 | `interval` of a temporal operator is its operand in Python; `0 < p < 1` is `p < 1` | all other attributes; when operators raise; what comparisons return |

## 4. Trusted base

Lean's kernel; the axioms `propext`, `Classical.choice`, `Quot.sound` (per theorem: `AXIOMS.md`); and the faithfulness
of the model to the source, which is by reading only. Not modelled: in the Python bindings of expressions the functions `Always`, `Eventually`, `Until`
and the constructors of these classes (`pyast.cc` passes `std::optional<Interval>` to constructors and takes the address
of overloaded functions that `ast.hpp` no longer has in that form, so at this commit it does not fit the library), CMake,
text of exception messages other than parse errors,
memory allocation failure, the size of C++ stack frames (C117 counts open rules), running time
in seconds (what is counted: calls of `compute` in C85, characters in C107, rounds of loops in C109, rules tried
by the parser in C121).
