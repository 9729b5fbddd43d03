{"id": "C01", "title": "Timestamps of a Signal are strictly increasing", "statement": "After any history of push_back calls on a new Signal (some accepted, some rejected with an exception), the timestamps stored in the Signal are strictly increasing, provided no timestamp handed in was NaN.", "quantifier": "every finite history of push_back attempts with arbitrary (time, value) doubles, times not NaN; every rounding behaviour of the arithmetic", "why_tests_cant": "A test pushes a few hand-picked or random sequences; the property is an invariant over every history, including histories in which rejected calls are caught and the signal is used further.", "anchors": ["src/include/signal_tl/signal.hpp: Signal::push_back", "src/core/signal.cc: Signal::push_back"]}
{"id": "C02", "title": "push_back accepts exactly later samples and is atomic", "statement": "push_back(s) succeeds iff the signal is empty or s.time is not <= end_time(); otherwise it throws std::invalid_argument and the signal is unchanged. On success the (time, value) sequence is the old one followed by exactly (s.time, s.value).", "quantifier": "every signal, every sample (including infinities and NaN)", "why_tests_cant": "Exception atomicity and the exact accept/reject boundary must hold at every one of infinitely many states.", "anchors": ["src/core/signal.cc: Signal::push_back"]}
{"id": "C03", "title": "Stored derivatives are the slopes of the segments", "statement": "In every signal produced by the constructors and push_back, the derivative of each sample but the last is (v'-v)/(t'-t) with respect to its successor, and the last derivative is 0.", "quantifier": "every history of push_back attempts, every rounding behaviour", "why_tests_cant": "It is an invariant over histories: push_back rewrites the derivative of an already stored sample.", "anchors": ["src/core/signal.cc: Signal::push_back", "src/include/signal_tl/signal.hpp: Sample::derivative"]}
{"id": "C04", "title": "Constructing from point and time vectors", "statement": "Signal(points, times) succeeds iff the two vectors have the same length and no time is <= its predecessor; on success the signal's samples are exactly the pairs (times[i], points[i]) in order; otherwise it throws std::invalid_argument.", "quantifier": "all pairs of vectors of doubles", "why_tests_cant": "Quantifies over vectors of every length and content.", "anchors": ["src/include/signal_tl/signal.hpp: Signal(const std::vector<double>&, const std::vector<double>&)"]}
{"id": "C05", "title": "Copying a signal yields an identical signal", "statement": "Copy-constructing a Signal, or constructing one from the sample sequence of another one, succeeds and yields the same samples (time, value and derivative) as the original.", "quantifier": "every signal reachable by constructors/push_back; every rounding behaviour", "why_tests_cant": "The copy constructor re-pushes every sample and recomputes all derivatives; equality must hold for signals of every length.", "anchors": ["src/include/signal_tl/signal.hpp: Signal(const Signal&)", "src/include/signal_tl/signal.hpp: Signal(const T&)"]}
{"id": "C06", "title": "at(t) returns the stored sample at a sample time", "statement": "If t is the timestamp of a sample of the signal, at(t) returns precisely that sample.", "quantifier": "every well-formed signal and every index in it", "why_tests_cant": "Binary search correctness for all lengths and all positions.", "anchors": ["src/core/signal.cc: Signal::at"]}
{"id": "C07", "title": "at(t) interpolates linearly between samples", "statement": "For begin_time() <= t <= end_time(), at(t).value is the value at t of the piecewise-linear function through the samples (documentation: interpolates from the closest sample less than t).", "quantifier": "every well-formed signal, every t within its domain", "why_tests_cant": "All real t and all signals; tests only sample t.", "anchors": ["src/core/signal.cc: Signal::at", "src/include/signal_tl/signal.hpp: Signal::at"]}
{"id": "C08", "title": "at(t) outside the domain throws", "statement": "For a non-empty signal and t < begin_time() or t > end_time(), at(t) throws std::invalid_argument (and never has undefined behaviour).", "quantifier": "every non-empty signal, every t outside its domain", "why_tests_cant": "All t outside of the domain, all signals; undefined behaviour may look fine in a test run.", "anchors": ["src/core/signal.cc: Signal::at"]}
{"id": "C09", "title": "begin_at(s) is the first sample at or after s", "statement": "begin_at(s) returns an iterator splitting the samples into those with time < s and those with time >= s.", "quantifier": "every signal with strictly increasing times, every s", "why_tests_cant": "Binary search over all signals and all s.", "anchors": ["src/include/signal_tl/signal.hpp: Signal::begin_at"]}
{"id": "C10", "title": "end_at(t) is the position after the last sample at or before t", "statement": "end_at(t) returns an iterator splitting the samples into those with time <= t and those with time > t, without undefined behaviour.", "quantifier": "every signal with strictly increasing times, every t", "why_tests_cant": "Undefined behaviour (dereferencing end()) is invisible to assertions in a test.", "anchors": ["src/include/signal_tl/signal.hpp: Signal::end_at"]}
{"id": "C11", "title": "simplify() preserves the function", "statement": "simplify() succeeds and returns a signal with the same begin and end time that has the same value at every time of the domain.", "quantifier": "every well-formed finite signal, every real t in its domain (ideal arithmetic)", "why_tests_cant": "An equality of functions on a continuum, for signals of every length.", "anchors": ["src/core/signal.cc: Signal::simplify"]}
{"id": "C12", "title": "simplify() is a normal form: sub-sequence, idempotent", "statement": "The samples of simplify() are, in (time, value), a sub-sequence of the original which keeps the first and the last sample, and simplify() applied twice equals simplify() applied once.", "quantifier": "every well-formed finite signal (ideal arithmetic)", "why_tests_cant": "Idempotence and sub-sequence must hold for every signal.", "anchors": ["src/core/signal.cc: Signal::simplify"]}
{"id": "C13", "title": "simplify() removes every redundant point", "statement": "Documentation: simplify removes sampling points where (y, dy) is continuous. Hence no interior point of the result lies on the line through its neighbours.", "quantifier": "every well-formed finite signal", "why_tests_cant": "Quantifies over all signals and all interior points.", "anchors": ["src/include/signal_tl/signal.hpp: Signal::simplify", "src/core/signal.cc: Signal::simplify"]}
{"id": "C14", "title": "resize(start, end, fill) restricts or extends to [start, end]", "statement": "For start < end, resize(start, end, fill) returns a signal defined exactly on [start, end] which agrees with the original where that is defined and equals fill elsewhere.", "quantifier": "every well-formed signal, all start < end, all fill", "why_tests_cant": "All relative positions of start and end with respect to all samples.", "anchors": ["src/include/signal_tl/signal.hpp: Signal::resize", "src/core/signal.cc: Signal::resize"]}
{"id": "C15", "title": "shift(dt) translates a signal in time", "statement": "shift(dt) succeeds, keeps every value and the slopes consistent, and shift(dt) at t+dt has the value of the original at t; shift(0) is the identity, shift(a) after shift(b) is shift(a+b).", "quantifier": "every well-formed finite signal, all finite dt, all t (ideal arithmetic)", "why_tests_cant": "Universally quantified algebraic law over all signals and shifts.", "anchors": ["src/core/signal.cc: Signal::shift"]}
{"id": "C16", "title": "synchronize() works on all overlapping signals", "statement": "synchronize(x, y) succeeds (no exception, no undefined behaviour) whenever both signals are non-empty and their time domains overlap.", "quantifier": "all pairs of well-formed finite signals with overlapping domains", "why_tests_cant": "All relative positions of two sequences of timestamps; one out-of-bounds read is silent in a test.", "anchors": ["src/core/signal.cc: synchronize"]}
{"id": "C17", "title": "Synchronized signals share the merged timestamps of the overlap", "statement": "When synchronize(x, y) succeeds, both results have the same timestamps, and these are exactly the timestamps of x or y that lie in [max begin, min end], in strictly increasing order.", "quantifier": "all pairs of signals on which synchronize succeeds (ideal arithmetic for values, any arithmetic for timestamps)", "why_tests_cant": "A merge of two sequences of arbitrary length.", "anchors": ["src/core/signal.cc: synchronize", "src/include/signal_tl/signal.hpp: synchronize"]}
{"id": "C18", "title": "Synchronization preserves both signals on the overlap", "statement": "When synchronize(x, y) = (x', y'), x'(t) = x(t) and y'(t) = y(t) for every t in [max begin, min end].", "quantifier": "all pairs of finite signals on which synchronize succeeds, every real t in the overlap (ideal arithmetic)", "why_tests_cant": "Equality of functions on a continuum.", "anchors": ["src/core/signal.cc: synchronize"]}
{"id": "C19", "title": "synchronize() is symmetric and idempotent", "statement": "When x and y can be synchronized, synchronize(y, x) is the swapped result of synchronize(x, y), and synchronizing the results again changes nothing.", "quantifier": "all pairs of finite signals on which synchronize succeeds (ideal arithmetic)", "why_tests_cant": "Algebraic law over all pairs of signals.", "anchors": ["src/core/signal.cc: synchronize"]}
{"id": "C20", "title": "Robustness of a predicate", "statement": "The robustness of x >= c and x > c is x(t)-c, of x <= c and x < c it is c-x(t), at every time of the domain of x, with the timestamps of x.", "quantifier": "every finite signal, operator, constant and every real t in the domain (ideal arithmetic)", "why_tests_cant": "All t in a continuum, all signals.", "anchors": ["src/robust_semantics/classic_robustness.cc: RobustnessOp::operator()(const ast::Predicate&)"]}
{"id": "C21", "title": "Negation negates, and double negation is the identity", "statement": "The robustness of Not(phi) at each sample is the negated robustness of phi with the same timestamps; Not(Not(phi)) has precisely the robustness signal of phi (or fails the same way).", "quantifier": "every formula phi and every trace, including infinities and NaN; every sign-symmetric rounding", "why_tests_cant": "All formulas of all depths and all traces.", "anchors": ["src/robust_semantics/classic_robustness.cc: RobustnessOp::operator()(const ast::NotPtr&)"]}
{"id": "C22", "title": "Conjunction is the pointwise minimum in dense time", "statement": "When compute_robustness succeeds for And({phi, psi}) and both operands are finite signals, the result is defined on the common domain of the operands' robustness and at every time t there its value is the minimum of the two.", "quantifier": "all pairs of finite operand signals on which it succeeds; every real t in the common domain (ideal arithmetic)", "why_tests_cant": "Crossing points must be found between samples, for all pairs of signals; equality on a continuum.", "anchors": ["src/robust_semantics/minmax.cc: compute_minmax_pair", "src/robust_semantics/classic_robustness.cc: RobustnessOp::operator()(const ast::AndPtr&)"]}
{"id": "C23", "title": "Disjunction is the pointwise maximum in dense time", "statement": "Same as for conjunction with the maximum.", "quantifier": "all pairs of finite operand signals on which it succeeds; every real t in the common domain (ideal arithmetic)", "why_tests_cant": "Crossing points must be found between samples, for all pairs of signals; equality on a continuum.", "anchors": ["src/robust_semantics/minmax.cc: compute_minmax_pair", "src/robust_semantics/classic_robustness.cc: RobustnessOp::operator()(const ast::OrPtr&)"]}
{"id": "C24", "title": "N-ary conjunction/disjunction: value and order independence", "statement": "The robustness of And(args)/Or(args) is the pointwise min/max over all arguments; permuting the arguments does not change the value at any time.", "quantifier": "argument lists of every length >= 2 of finite signals with the same begin time; every real t in the common domain (ideal arithmetic)", "why_tests_cant": "Lists of all lengths, all permutations.", "anchors": ["src/robust_semantics/minmax.cc: compute_minmax_pair(const std::vector<SignalPtr>&,...)"]}
{"id": "C25", "title": "De Morgan's laws hold for computed robustness signals", "statement": "compute_robustness of Not(And(args)) and of Or(Not(arg)...) give the same result: the same signal sample by sample, or the same failure; likewise with And and Or exchanged.", "quantifier": "all non-empty argument lists of formulas and all traces with finite timestamps, infinite and NaN values included (ideal arithmetic)", "why_tests_cant": "All formulas of every depth, all traces.", "anchors": ["src/robust_semantics/minmax.cc: compute_minmax_pair", "src/robust_semantics/classic_robustness.cc: RobustnessOp"]}
{"id": "C26", "title": "Eventually is the running supremum at sample times", "statement": "At every timestamp t of the operand's robustness y, the robustness of Eventually(phi) is the supremum of y over all real t' in [t, end]; timestamps are those of y.", "quantifier": "every finite non-empty operand signal, every sample index", "why_tests_cant": "A supremum over a continuum, for all signals.", "anchors": ["src/robust_semantics/minmax.cc: compute_minmax_seq(const SignalPtr&, Compare)", "src/robust_semantics/classic_robustness.cc: RobustnessOp::operator()(const ast::EventuallyPtr&)"]}
{"id": "C27", "title": "Always is the running infimum at sample times", "statement": "Same as for Eventually with the infimum.", "quantifier": "every finite non-empty operand signal, every sample index", "why_tests_cant": "An infimum over a continuum, for all signals.", "anchors": ["src/robust_semantics/minmax.cc: compute_minmax_seq(const SignalPtr&, Compare)", "src/robust_semantics/classic_robustness.cc: RobustnessOp::operator()(const ast::AlwaysPtr&)"]}
{"id": "C28", "title": "Eventually/Always are exact between samples", "statement": "At every real t of the domain (not only at sample times) the robustness of Eventually(phi)/Always(phi) equals the supremum/infimum of the operand's robustness over [t, end].", "quantifier": "every finite operand signal and every real t in its domain", "why_tests_cant": "All t of a continuum.", "anchors": ["src/robust_semantics/minmax.cc: compute_minmax_seq(const SignalPtr&, Compare)"]}
{"id": "C29", "title": "Always and Eventually are dual", "statement": "Always(phi) and Not(Eventually(Not(phi))) have the same computed robustness signal or the same failure; and vice versa.", "quantifier": "every formula, every interval, every trace incl. infinities and NaN; every sign-symmetric rounding", "why_tests_cant": "All formulas and traces.", "anchors": ["src/robust_semantics/classic_robustness.cc: RobustnessOp", "src/robust_semantics/minmax.cc: compute_minmax_seq"]}
{"id": "C30", "title": "Eventually/Always are monotone in time and idempotent", "statement": "The robustness signal of Eventually(phi) is non-increasing and that of Always(phi) non-decreasing in time, and Eventually(Eventually(phi)) / Always(Always(phi)) have the same robustness signal as Eventually(phi) / Always(phi).", "quantifier": "every formula and trace for which the duration of the operand's robustness is not NaN and (for monotonicity) its values are not NaN; every rounding behaviour", "why_tests_cant": "All signals.", "anchors": ["src/robust_semantics/minmax.cc: compute_minmax_seq"]}
{"id": "C31", "title": "Bounded Eventually/Always respect their interval", "statement": "The robustness of Eventually(phi, [a,b]) at a sample time t is the supremum of the robustness of phi over [t+a, t+b] (for Always: the infimum).", "quantifier": "every operand, every interval, every sample time", "why_tests_cant": "All intervals, all signals.", "anchors": ["src/robust_semantics/classic_robustness.cc: RobustnessOp::operator()(const ast::EventuallyPtr&)", "src/include/signal_tl/ast.hpp: Interval::has_value", "src/robust_semantics/minmax.cc: compute_minmax_seq"]}
{"id": "C32", "title": "Until has the STL robustness", "statement": "The robustness of Until(phi, psi) at a sample time t is sup over t' in [t,end] of min(psi(t'), inf over [t,t'] of phi).", "quantifier": "all pairs of finite signals and all sample times", "why_tests_cant": "All signals, all times.", "anchors": ["src/robust_semantics/classic_robustness.cc: compute_until"]}
{"id": "C33", "title": "Bounded Until is reported as not implemented", "statement": "Computing the robustness of Until(phi, psi, [a,b]) with a bounded interval throws not_implemented_error instead of returning a value.", "quantifier": "all formulas, all bounded intervals, all traces", "why_tests_cant": "All intervals and all operands.", "anchors": ["src/robust_semantics/classic_robustness.cc: compute_until(\u2026, double, double)", "src/robust_semantics/classic_robustness.cc: RobustnessOp::operator()(const ast::UntilPtr&)", "src/include/signal_tl/ast.hpp: Interval::has_value"]}
{"id": "C34", "title": "Totality on aligned traces", "statement": "If all signals of the trace are finite, well formed and start at the same time, and all names of the formula are in the trace, then compute_robustness of any formula without Boolean constants returns a signal (no exception, no assertion failure, no undefined behaviour), which starts at that time and ends at the smallest end time of the signals used by the formula.", "quantifier": "every constant-free formula of any depth that the constructors can build, with finite predicate bounds and any intervals, every such trace (ideal arithmetic)", "why_tests_cant": "All formulas and all traces; undefined behaviour is invisible to tests.", "anchors": ["src/robust_semantics/classic_robustness.cc: compute_robustness"]}
{"id": "C35", "title": "A predicate over a missing signal is an error", "statement": "If a name used in the formula is missing in the trace, compute_robustness never returns a signal.", "quantifier": "every formula and every trace", "why_tests_cant": "All formulas: every position in which the predicate can occur.", "anchors": ["src/robust_semantics/classic_robustness.cc: RobustnessOp::operator()(const ast::Predicate&)"]}
{"id": "C36", "title": "Robustness depends only on the signals named in the formula", "statement": "For a formula without Boolean constants, two traces that agree on the names used in the formula give the same outcome; the `synchronized` flag has no influence.", "quantifier": "every formula, every pair of traces; every rounding behaviour", "why_tests_cant": "Non-interference: a relational property over pairs of traces.", "anchors": ["src/robust_semantics/classic_robustness.cc: compute_robustness"]}
{"id": "C37", "title": "Boolean constants are neutral and absorbing", "statement": "And({Const(true), phi}) and Or({Const(false), phi}) have the robustness values of phi.", "quantifier": "every formula and every trace", "why_tests_cant": "All formulas and traces.", "anchors": ["src/robust_semantics/classic_robustness.cc: RobustnessOp::operator()(const ast::Const)", "src/core/signal.cc: synchronize"]}
{"id": "C38", "title": "Boolean fragment is exact in dense time", "statement": "For formulas built from predicates with Not, And, Or, the value of compute_robustness(phi, trace) at every time of its domain equals the dense-time quantitative semantics of phi.", "quantifier": "every such formula of any depth, every aligned finite trace, every real t in the domain (ideal arithmetic)", "why_tests_cant": "Structural induction over all formulas and equality on a continuum.", "anchors": ["src/robust_semantics/classic_robustness.cc: compute_robustness"]}
{"id": "C39", "title": "Safety verdicts are sound", "statement": "For formulas built from predicates, Not, And, Or, Always under an even number of negations and Eventually under an odd number of negations (with any intervals), the computed robustness is a lower bound of the dense-time quantitative semantics at every time of its domain; so a positive computed robustness implies that the formula is satisfied.", "quantifier": "every such formula, every aligned finite trace with a common time domain, every real t (ideal arithmetic)", "why_tests_cant": "Soundness of a verdict over all formulas, traces and times.", "anchors": ["src/robust_semantics/classic_robustness.cc: compute_robustness"]}
{"id": "C40", "title": "Co-safety violations are sound", "statement": "For formulas built from predicates, Not, And, Or, Eventually under an even number of negations and Always under an odd number of negations (with any intervals), the computed robustness is an upper bound of the dense-time quantitative semantics at every time; so a negative computed robustness implies that the formula is violated.", "quantifier": "every such formula, every aligned finite trace with a common time domain, every real t (ideal arithmetic)", "why_tests_cant": "Soundness of a verdict over all formulas, traces and times.", "anchors": ["src/robust_semantics/classic_robustness.cc: compute_robustness"]}
{"id": "C41", "title": "Time-translation equivariance", "statement": "Shifting all signals of the trace by dt shifts the computed robustness signal by dt and changes nothing else.", "quantifier": "every formula whose And/Or nodes have at least two operands (as the API guarantees), every trace of non-empty signals with finite timestamps, every finite dt (ideal arithmetic)", "why_tests_cant": "A relational property over all formulas, traces and shifts.", "anchors": ["src/robust_semantics/classic_robustness.cc: compute_robustness", "src/core/signal.cc: Signal::shift"]}
{"id": "C42", "title": "Every robustness signal is well formed", "statement": "Whenever compute_robustness returns a signal, its timestamps are never out of order (no timestamp is <= its predecessor) and its derivatives are the slopes.", "quantifier": "every formula and every trace, whatever the values, every rounding behaviour", "why_tests_cant": "All formulas, all traces.", "anchors": ["src/robust_semantics/classic_robustness.cc: compute_robustness", "src/core/signal.cc: Signal::push_back"]}
{"id": "C43", "title": "And/Or never mess up timestamps in IEEE double arithmetic", "statement": "compute_robustness of And/Or over finite signals with identical timestamps does not throw, when all operations are rounded as IEEE-754 binary64.", "quantifier": "all pairs of binary64 signals", "why_tests_cant": "The failing inputs depend on the last bit of the rounding of slopes; random tests do not find them.", "anchors": ["src/robust_semantics/minmax.cc: compute_minmax_pair", "tests/test_append_error.cc"]}
{"id": "C44", "title": "&, | and ~ preserve Boolean meaning", "statement": "Whenever a & b (a | b, ~a) returns an expression, that expression is satisfied exactly when both are (one is, a is not) - in every valuation of predicates and temporal sub-formulas.", "quantifier": "all expressions a, b of any shape and depth, all valuations", "why_tests_cant": "The operators simplify constants and flatten; meaning must be preserved for all operand shapes.", "anchors": ["src/core/ast.cc: operator&", "src/core/ast.cc: operator|", "src/core/ast.cc: operator~", "src/core/ast.cc: AndHelper", "src/core/ast.cc: OrHelper"]}
{"id": "C45", "title": "Implies, Xor and Iff have their truth tables", "statement": "Whenever Implies(a,b), Xor(a,b), Iff(a,b) return, the result is satisfied exactly according to the truth table.", "quantifier": "all expressions, all valuations", "why_tests_cant": "Built from simplifying operators; all operand shapes.", "anchors": ["src/core/ast.cc: Implies", "src/core/ast.cc: Xor", "src/core/ast.cc: Iff"]}
{"id": "C46", "title": "Combining expressions never throws", "statement": "a & b, a | b, Implies, Xor, Iff return an expression for all operands.", "quantifier": "all pairs of expressions", "why_tests_cant": "All shapes of operands.", "anchors": ["src/core/ast.cc: AndHelper", "src/core/ast.cc: OrHelper"]}
{"id": "C47", "title": "Every And/Or node has at least two operands", "statement": "Every expression reachable through the expression API (constructors and operators) has only And/Or nodes with at least two operands.", "quantifier": "every expression built by any sequence of API calls", "why_tests_cant": "An invariant over all construction histories.", "anchors": ["src/include/signal_tl/ast.hpp: And", "src/include/signal_tl/ast.hpp: Or", "src/core/ast.cc"]}
{"id": "C48", "title": "Flattening does not change robustness", "statement": "For an And expression c, c & d (for d neither an And nor a constant) and the nested And({c, d}) return the same robustness signal or both fail, and have the same outcome in all respects if the robustness of d can be computed; same for Or.", "quantifier": "all such expressions, all traces, every rounding behaviour", "why_tests_cant": "All formulas and traces.", "anchors": ["src/core/ast.cc: AndHelper", "src/robust_semantics/minmax.cc: compute_minmax_pair(const std::vector<SignalPtr>&,...)"]}
{"id": "C49", "title": "Intervals are validated", "statement": "An Interval that was constructed successfully has 0 <= low < high (NaN excluded).", "quantifier": "all pairs of numeric bounds, both constructors", "why_tests_cant": "All doubles incl. NaN and all 64-bit integers.", "anchors": ["src/include/signal_tl/ast.hpp: Interval"]}
{"id": "C50", "title": "Monotonic wedge maintains the running extremum", "statement": "After feeding any sequence of values to mono_wedge_update (starting from an empty wedge, with interleaved pop_front), the front of the wedge is an optimum of all values still in the window, and the wedge is sorted.", "quantifier": "every sequence of updates and pops, every total preorder (or strict weak ordering) used as comparator on the values that occur", "why_tests_cant": "All sequences of operations.", "anchors": ["src/robust_semantics/mono_wedge.h: mono_wedge_search", "src/robust_semantics/mono_wedge.h: mono_wedge_update"]}
{"id": "C51", "title": "Windowed min/max over [t+a, t+b]", "statement": "compute_minmax_seq(x, a, b) returns the min/max over the window [t+a, t+b] for each sample time t.", "quantifier": "every signal and all 0 <= a < b", "why_tests_cant": "All signals and window sizes; undefined behaviour is invisible to tests.", "anchors": ["src/robust_semantics/minmax.cc: compute_minmax_seq(const SignalPtr&, double, double, Compare)"]}
{"id": "C52", "title": "The parser terminates on every input", "statement": "from_string terminates on every input: it returns a specification or throws (or fails an assertion in debug builds).", "quantifier": "every byte string", "why_tests_cant": "All inputs.", "anchors": ["src/parser/grammar.hpp", "src/parser/parser.cc: from_string"]}
{"id": "C53", "title": "Round trip: rendered specifications parse to what they denote", "statement": "For every specification (list of define-formula/assert commands over the documented term syntax with predicates of the form (op identifier constant)) and every layout (whitespace, line breaks, comments between tokens), from_string of the text yields exactly the formulas and assertions obtained by applying the expression API bottom up, with earlier formulas substituted for identifiers.", "quantifier": "every specification of any size and nesting depth, every layout", "why_tests_cant": "All syntax trees and all layouts.", "anchors": ["src/parser/grammar.hpp", "src/parser/actions.hpp", "src/parser/parser.cc"]}
{"id": "C54", "title": "Parsed formulas are well formed", "statement": "Whenever from_string returns, every And/Or node in every formula and assertion has at least two operands and every temporal operator has the interval [0, inf).", "quantifier": "every byte string that is accepted", "why_tests_cant": "All accepted inputs.", "anchors": ["src/parser/actions.hpp"]}
{"id": "C55", "title": "No redefinition", "statement": "A specification defining the same formula (assertion) name twice is rejected; definitions already made are never overwritten.", "quantifier": "every specification with a repeated name, every layout", "why_tests_cant": "All inputs.", "anchors": ["src/parser/actions.hpp: action<DefineFormula>", "src/parser/actions.hpp: action<Assertion>"]}
{"id": "C56", "title": "Uses of undefined formulas are rejected", "statement": "A term that refers to a formula name which was not defined earlier makes from_string throw.", "quantifier": "every specification with such a use, every layout", "why_tests_cant": "All inputs.", "anchors": ["src/parser/actions.hpp: action<Term>"]}
{"id": "C57", "title": "Reversed predicates (op constant identifier)", "statement": "(op c x) parses to the predicate x op' c with op' the mirrored comparison (grammar documentation).", "quantifier": "all operators, constants, identifiers", "why_tests_cant": "All constants, identifiers, layouts.", "anchors": ["src/parser/grammar.hpp: PredicateForm2", "src/parser/actions.hpp: action<PredicateTerm>"]}
{"id": "C58", "title": "A parenthesised term is exactly one expression", "statement": "Inside a pair of parentheses of a term exactly one expression is accepted; everything written in an accepted specification contributes to the result, and redundant parentheses do not matter.", "quantifier": "every accepted byte string", "why_tests_cant": "All inputs.", "anchors": ["src/parser/grammar.hpp: TermTail", "src/parser/actions.hpp: action<Term>"]}
{"id": "C59", "title": "Printing distinguishes formulas", "statement": "Two different formulas print differently; in particular the interval of a temporal operator is printed.", "quantifier": "all pairs of expressions", "why_tests_cant": "Injectivity over all expressions.", "anchors": ["src/include/signal_tl/fmt.hpp"]}
{"id": "C60", "title": "Printing a signal loses nothing", "statement": "If the text of a double determines the double, the printed text of a signal determines its times and values, and two signals built by constructors or push_back that print the same are equal including their derivatives.", "quantifier": "all pairs of signals of any length; every faithful number format", "why_tests_cant": "Injectivity is a statement about all pairs of signals; tests compare a few printed strings.", "anchors": ["src/include/signal_tl/fmt.hpp: formatter<Signal>", "src/include/signal_tl/fmt.hpp: formatter<Sample>"]}
{"id": "C61", "title": "Exact robustness at samples and at the start of the trace", "statement": "For Not/Always/Eventually with [0, inf) nested to any depth around a formula of predicates, Not, And and Or, the computed robustness equals the dense-time quantitative semantics at every sample of the result; for Boolean combinations of these the first sample is the dense-time robustness at the start of the trace, and its sign decides satisfaction.", "quantifier": "all formulas of the fragment, all traces of finite signals with a common start and end, exact arithmetic", "why_tests_cant": "Compares a sampled computation with suprema over all real times, for formulas of unbounded depth.", "anchors": ["src/robust_semantics/classic_robustness.cc", "src/robust_semantics/minmax.cc: compute_minmax_seq"]}
{"id": "C62", "title": "Robustness is a margin", "statement": "If the computed robustness of a safety formula exceeds delta, every real-time trace (piecewise linear or not) within delta of the sampled one satisfies the formula; dually for co-safety formulas below -delta; and moving the signals by at most delta moves the first sample of the computed robustness by at most delta.", "quantifier": "all formulas of the fragments, all traces, all perturbations by arbitrary functions, exact arithmetic", "why_tests_cant": "Quantifies over all functions within delta of the trace.", "anchors": ["src/robust_semantics/classic_robustness.cc: compute_robustness"]}
{"id": "C63", "title": "Bounded number of samples", "statement": "The robustness of a formula has at most as many samples as the signal for a predicate, two for a constant, as many as the operand for Not/Always/Eventually, as both operands for Until, and twice as many as both operands for And/Or (folded over the operands).", "quantifier": "all formulas, all traces with finite timestamps, every rounding that does not produce NaN (binary64 included)", "why_tests_cant": "Worst-case size over all formulas and signals; a test sees some sizes.", "anchors": ["src/robust_semantics/minmax.cc: compute_minmax_pair", "src/robust_semantics/classic_robustness.cc"]}
{"id": "C64", "title": "No numerical error at common samples", "statement": "For a formula of predicates, Not, And and Or: at each instant at which all signals it uses have a sample, the robustness (if returned) has exactly one sample and its value is bit for bit up to the sign of zero (C113) the one computed from the samples by subtraction, negation, minimum and maximum.", "quantifier": "all formulas of the fragment, all traces with finite timestamps, all instants, every rounding that does not produce NaN (binary64 included)", "why_tests_cant": "Bitwise statement for all rounding behaviours and all nestings; tests use tolerances or a few literals.", "anchors": ["src/core/signal.cc: synchronize", "src/robust_semantics/minmax.cc: compute_minmax_pair"]}
{"id": "C65", "title": "Eventually and Always at samples for every rounding", "statement": "If the robustness of phi is a non-empty signal without NaN values, Eventually(phi) (Always(phi)) returns a signal with the same timestamps whose value at each sample is the greatest (smallest) of the values of phi at this and the later samples, whatever the interval.", "quantifier": "all formulas phi, all traces with finite timestamps, all intervals whose upper bound is not -inf, every rounding that does not produce NaN (binary64 included), infinite values included", "why_tests_cant": "All formulas, roundings and lengths.", "anchors": ["src/robust_semantics/minmax.cc: compute_minmax_seq", "src/robust_semantics/classic_robustness.cc: Eventually, Always"]}
{"id": "C66", "title": "The flag `synchronized` of the element-wise functions is only a hint", "statement": "Calling compute_elementwise_min or compute_elementwise_max with synchronized = true on signals that have the same timestamps gives the same outcome as with synchronized = false.", "quantifier": "all lists of non-empty signals with equal timestamps (not NaN), both build types, every rounding", "why_tests_cant": "All signals, all numbers of operands.", "anchors": ["src/robust_semantics/minmax.cc: compute_elementwise_min, compute_elementwise_max, compute_minmax_pair"]}
{"id": "C67", "title": "And and Or are idempotent bit for bit", "statement": "The conjunction (disjunction) of any number of copies of a formula has the outcome of the formula itself: the same samples or the same failure.", "quantifier": "all formulas whose robustness is not an empty signal, all traces with finite timestamps, all numbers of copies, every rounding that does not produce NaN (binary64 included), NaN and infinite values included", "why_tests_cant": "All formulas, signals and roundings.", "anchors": ["src/robust_semantics/minmax.cc: compute_minmax_pair", "src/robust_semantics/classic_robustness.cc: And, Or"]}
{"id": "C68", "title": "The sign of the robustness is the verdict", "statement": "At every time of the trace a positive robustness means that the formula is satisfied at this time and a negative one that it is violated.", "quantifier": "all formulas with the interval [0, inf), all traces whose signals start and end together, all real times", "why_tests_cant": "The comparison with the dense-time semantics ranges over all real times.", "anchors": ["src/robust_semantics/classic_robustness.cc: compute_robustness", "src/robust_semantics/minmax.cc: compute_minmax_seq"]}
{"id": "C69", "title": "Changing the units of time and values scales the robustness", "statement": "Multiplying all times (timestamps and bounds of the intervals) by a and all values (samples and constants of the predicates) by c multiplies the times of the robustness by a and its values by c, and changes neither the outcome nor the number of samples.", "quantifier": "all formulas, all traces with finite timestamps, all positive a and c, exact arithmetic; infinite and NaN values included", "why_tests_cant": "All traces, formulas and factors; a wrong scaling of one intermediate slope is visible only for some of them.", "anchors": ["src/robust_semantics/classic_robustness.cc: compute_robustness", "src/robust_semantics/minmax.cc", "src/core/signal.cc: synchronize, Signal::push_back"]}
{"id": "C70", "title": "The robustness does not depend on where the signals are sampled", "statement": "Two traces whose signals are samples of the same piecewise-linear functions have robustness signals that are samples of the same function.", "quantifier": "all formulas, all pairs of traces that represent the same functions", "why_tests_cant": "All functions and all ways to sample them; whether an added sample matters depends on the formula and the position.", "anchors": ["src/robust_semantics/classic_robustness.cc: compute_robustness", "src/robust_semantics/minmax.cc: compute_minmax_seq", "src/core/signal.cc: synchronize"]}
{"id": "C71", "title": "area is the integral", "statement": "area(t) of a sample is the integral of the line through the sample from its time to t (0 if t is not later); the areas from each sample to the next sum up to the integral of the signal over its domain.", "quantifier": "all finite real samples and times, all signals with finite samples, exact arithmetic", "why_tests_cant": "All real slopes, values and times; the integral is that of Mathlib.", "anchors": ["src/include/signal_tl/signal.hpp: Sample::area, Signal::area"]}
{"id": "C72", "title": "time_intersect is the crossing point of two lines", "statement": "If the slopes of two samples differ, time_intersect is the only time at which the two lines have the same value, in either order of the operands; if they are equal it is NaN for one and the same line and infinite otherwise.", "quantifier": "all finite samples, exact arithmetic (with binary64 rounding the two orders can differ: witness)", "why_tests_cant": "All pairs of lines, uniqueness over all times.", "anchors": ["src/include/signal_tl/signal.hpp: Sample::time_intersect"]}
{"id": "C73", "title": "Equality of predicates is sound and almost complete", "statement": "== of predicates is symmetric and transitive and reflexive unless the constant is NaN. Equal predicates have the same robustness on every trace; predicates with the same robustness on every trace differ at most in the strictness of the comparison.", "quantifier": "all predicates; soundness for every rounding, completeness for finite constants in exact arithmetic", "why_tests_cant": "All names, constants and traces.", "anchors": ["src/include/signal_tl/ast.hpp: Predicate::operator==", "src/robust_semantics/classic_robustness.cc: Predicate"]}
{"id": "C74", "title": "Cost of the monotonic wedge", "statement": "One update of a wedge with N elements makes at most 2 log2 N + 2 comparisons, and at most 2 (k + 1) if it removes k elements; any sequence of updates and removals starting from an empty wedge makes at most 4 comparisons per update.", "quantifier": "all element types, all comparison functions, all wedges, all sequences of operations", "why_tests_cant": "A bound on the number of comparisons for every length and every order of the inputs.", "anchors": ["src/robust_semantics/mono_wedge.h: mono_wedge_search, mono_wedge_update"]}
{"id": "C75", "title": "The past does not matter", "statement": "If all signals used by a formula have a sample at time t, dropping all samples before t from the trace drops exactly the samples before t from the robustness and changes no other; two traces that agree from t on have the same robustness from t on.", "quantifier": "all formulas without constants whose And and Or have the arity that the constructors ask for, all traces with finite timestamps, all t, every rounding that does not produce NaN", "why_tests_cant": "All formulas, traces and cut points, and equality of the floating point results, not closeness.", "anchors": ["src/robust_semantics/classic_robustness.cc: RobustnessOp", "src/robust_semantics/minmax.cc: compute_minmax_pair, compute_minmax_seq", "src/core/signal.cc: synchronize"]}
{"id": "C76", "title": "Better signals, better robustness", "statement": "If every signal that a formula uses with positive polarity is raised (at any times, by any amounts) and every signal used with negative polarity is lowered, the robustness of the formula at the start of the trace does not fall; for formulas without temporal operators it does not fall at any time.", "quantifier": "all formulas in which every signal has one polarity, all pairs of traces over the same time span", "why_tests_cant": "All formulas and all pairs of ordered traces; the failing cases need nested temporal operators over a disjunction.", "anchors": ["src/robust_semantics/classic_robustness.cc: RobustnessOp", "src/robust_semantics/minmax.cc: compute_minmax_pair, compute_minmax_seq"]}
{"id": "C77", "title": "The names of the signals and the order of the trace do not matter", "statement": "Renaming the signals in the formula and in the trace by an injective map, and listing the entries of the trace in another order, leaves the outcome of compute_robustness unchanged, whether it is a signal or a failure.", "quantifier": "all formulas, all traces, all injective renamings, all orders of the entries, every rounding, NaN and infinities included", "why_tests_cant": "All formulas, traces and renamings; equality of every outcome including the failures.", "anchors": ["src/robust_semantics/classic_robustness.cc: RobustnessOp, compute_robustness", "src/include/signal_tl/ast.hpp: Predicate"]}
{"id": "C78", "title": "From the text to the number", "statement": "If from_string accepts a text, the assertions of the result are those written, under their names, and each has the quantitative and the Boolean semantics of what is written (with the formulas defined above it filled in). For an assertion whose temporal operators are not applied to Boolean combinations of temporal formulas, the first sample of its computed robustness is at the start of the trace, its value is the robustness of what is written in the text, and its sign is the verdict.", "quantifier": "all texts in the grammar of the parser (predicates with the name on the left), all layouts and comments, all traces with exact real arithmetic whose used signals cover the same interval", "why_tests_cant": "Composes the parser, the constructors and the monitor over all texts, layouts and traces against a semantics defined on the written syntax; a test checks one text and one trace.", "anchors": ["src/parser/parser.cc: from_string", "src/parser/actions.hpp: action", "src/core/ast.cc: And, Or, Implies, Iff, Xor", "src/robust_semantics/classic_robustness.cc: compute_robustness"]}
{"id": "C79", "title": "Longer traces", "statement": "If a formula uses Always only under an even and Eventually only under an odd number of negations (a safety formula), appending samples to the trace does not raise the robustness at its start, so a negative verdict is final; dually for co-safety formulas and positive verdicts.", "quantifier": "all safety and co-safety formulas, all traces, all continuations", "why_tests_cant": "All formulas, traces and continuations; the known violation needs three nested temporal operators over Boolean combinations and was not found by random search.", "anchors": ["src/robust_semantics/classic_robustness.cc: RobustnessOp", "src/robust_semantics/minmax.cc: compute_minmax_pair, compute_minmax_seq"]}
{"id": "C80", "title": "Error of the interpolation", "statement": "If neighbouring samples of the signals differ by at most delta and at most d unbounded temporal operators are nested, the computed robustness differs from the dense-time quantitative semantics by at most d*delta/4 at every time, and by at most (d-1)*delta/4 at the start of the trace; beyond that the sign is the verdict. The constant 1/4 is the best possible.", "quantifier": "all formulas of predicates, Not, And, Or and unbounded Always and Eventually, of any nesting, all traces over a common interval with exact real arithmetic, all delta", "why_tests_cant": "A bound on the error at every real time for all formulas and traces; a test sees finitely many times and cannot show that no error is larger.", "anchors": ["src/robust_semantics/classic_robustness.cc: RobustnessOp", "src/robust_semantics/minmax.cc: compute_minmax_pair, compute_minmax_seq", "src/core/signal.cc: synchronize"]}
{"id": "C81", "title": "Sampling of continuous signals", "statement": "If the trace holds samples, at most h apart, of Lipschitz signals with constant L, the computed robustness differs from the quantitative semantics of these signals by at most (d/4 + 1/2) L h at every time, where d is the nesting of temporal operators. For continuous signals it converges uniformly to the quantitative semantics as h goes to zero.", "quantifier": "all formulas of predicates, Not, And, Or and unbounded Always and Eventually, all Lipschitz (continuous) signals, all sampling times, different for each signal, with exact real arithmetic", "why_tests_cant": "Quantifies over functions of real time and limits.", "anchors": ["src/robust_semantics/classic_robustness.cc: RobustnessOp", "src/robust_semantics/minmax.cc: compute_minmax_pair, compute_minmax_seq", "src/core/signal.cc: synchronize"]}
{"id": "C82", "title": "The accepted language", "statement": "from_string accepts a text if and only if it is a text of the accepted language (a token grammar with layout: parentheses hold any number of expressions, outer parentheses any number of commands, `and` and `or` take all terms that follow, predicates have the name on the left) and the grammar's evaluation of it succeeds; the result is the value of this evaluation. A text has at most one value, however it is read; other texts are rejected.", "quantifier": "all input texts, both build modes, every rounding", "why_tests_cant": "An equivalence over all texts; tests see finitely many accepted and rejected ones and cannot show that nothing else is accepted.", "anchors": ["src/parser/grammar.hpp: Term, Expression, AnyCommand, StatementList, EndOfWord", "src/parser/actions.hpp: action", "src/parser/parser.cc: from_string"]}
{"id": "C83", "title": "The Python classes", "statement": "The attributes time, value and derivative of a Sample seen from Python are the members of these names; len, iteration and indexing of a Signal agree; Signal(points, times) gives back its points and times, and at(t) the point at each of the times. Out-of-range indices raise IndexError, rejected sequences ValueError.", "quantifier": "all samples, all signals, all integer indices, all sequences of points and times", "why_tests_cant": "Statement about all samples: the wrong attribute agrees with the right one on constant signals at zero and on the last sample of many signals.", "anchors": ["python_bindings/pysignal.cc:33-66: init_signal_module", "python_bindings/pysignal_tl.cc:10-11"]}
{"id": "C84", "title": "Samples are ordered by value", "statement": "The comparison operators of Sample are those of the values, and < is a strict weak order (as std::min, std::max and the monotonic wedge require).", "quantifier": "all pairs and triples of samples, with infinite and NaN values", "why_tests_cant": "Statement about all triples of doubles; it fails only with NaN.", "anchors": ["src/include/signal_tl/signal.hpp: Sample, operator<, operator>, operator<=, operator>="]}
{"id": "C85", "title": "Cost of evaluating a specification", "statement": "The number of calls of compute made by compute_robustness for an assertion of an accepted text is bounded by a polynomial in the length of the text.", "quantifier": "all accepted texts, all traces, both build modes", "why_tests_cant": "An asymptotic statement over all texts.", "anchors": ["src/robust_semantics/classic_robustness.cc:77-79: compute", "src/robust_semantics/classic_robustness.cc:143-160: And, Or", "src/core/ast.cc: And, Or", "src/parser/actions.hpp:287-331: Implies, Iff, Xor", "src/parser/actions.hpp:418-448: action<Term>"]}
{"id": "C86", "title": "Robustness is correctly rounded in binary64", "statement": "For combinations (Not, And, Or) of Not/Always/Eventually chains over predicates on finite doubles, the computed robustness at an instant where all signals have a sample is the exact dense-time robustness rounded to the nearest double: rounding errors do not accumulate, and the sign (hence the verdict) is exact.", "quantifier": "all traces of finite doubles ending at the same time, all such formulas, all common sample times, both build modes", "why_tests_cant": "A statement about every pair of doubles and every formula, compared with real-number suprema and infima.", "anchors": ["src/robust_semantics/classic_robustness.cc:113-131: Predicate", "src/robust_semantics/classic_robustness.cc:134-138: Not", "src/robust_semantics/classic_robustness.cc:143-160: And, Or", "src/robust_semantics/classic_robustness.cc:162-196: Eventually, Always", "src/robust_semantics/minmax.cc: compute_minmax_seq, compute_minmax_pair"]}
{"id": "C87", "title": "Formulas may be rewritten with exactly the laws of negation, minimum and maximum", "statement": "In exact arithmetic, a formula built by Not, And and Or (of one or more operands, nested at will) from formulas whose robustness signals are finite and start at the same time evaluates without error, on the intersection of the domains of the operands, to the corresponding term of negation, minimum and maximum of the operands' robustness at every instant, also between samples. Hence an inequality (or equation) between two such terms holds between the computed robustness values, for all operands, traces and instants, if and only if it holds for all numbers. Absorption, distributivity, De Morgan and 'a contradiction is at most a tautology' are such laws.", "quantifier": "all terms F, G of Not/And/Or, all operand formulas with finite robustness from a common start, all traces, both build modes, all instants of the common domain", "why_tests_cant": "There are infinitely many terms, operands and instants; two equal terms get different crossing samples, so equality must hold between samples too, and that no other law holds needs a distinguishing trace for every invalid law.", "anchors": ["src/robust_semantics/classic_robustness.cc:134-138: Not", "src/robust_semantics/classic_robustness.cc:143-160: And, Or", "src/robust_semantics/minmax.cc: compute_minmax_pair(const std::vector<SignalPtr>&,...)"]}
{"id": "C88", "title": "Evaluation keeps every sample of the signals, covers exactly their common range, and And/Or add samples only at crossings", "statement": "Let all timestamps of the trace be finite. If compute_robustness succeeds, then every timestamp of a signal that the formula refers to is a timestamp of the result as long as it lies within the range of the result, and the result covers no time that one of these signals does not cover; this holds with any sane rounding, binary64 included. If the formula has no Boolean constant and every And and Or has at least two operands, the result covers exactly the times that all its signals cover. In exact arithmetic, a timestamp of the And or Or of two operands that is a timestamp of neither operand is an instant at which the operands have the same value.", "quantifier": "all formulas, all traces with finite timestamps, all signals of the formula, all instants, both build modes; any rounding (samples, range), exact arithmetic (crossings)", "why_tests_cant": "Dropping one breakpoint changes the value only between its neighbours, so tests that look at the samples of the result miss it; the claim ranges over all nestings of operators and all traces.", "anchors": ["src/core/signal.cc:115-173: synchronize", "src/robust_semantics/minmax.cc:19-65: compute_minmax_pair", "src/robust_semantics/minmax.cc:91-105: compute_minmax_seq", "src/robust_semantics/classic_robustness.cc:83-214: compute_robustness, RobustnessOp"]}
{"id": "C89", "title": "Always distributes over And, Eventually over Or; combinations of both", "statement": "Claim: the robustness of Always(And(phi, psi)) equals that of And(Always(phi), Always(psi)) at every instant, and dually for Eventually and Or. This is false between the samples, in both directions. What holds (exact arithmetic, finite signals with a common start): both sides evaluate, on the common domain; at the samples of Always(And(phi, psi)) the distributed form is never larger, and both agree at every instant that is a timestamp of both operands if the operands have the same domain; dually for Eventually and Or. Or(Always(phi), Always(psi)) <= Always(Or(phi, psi)) and Eventually(And(phi, psi)) <= And(Eventually(phi), Eventually(psi)) hold at every instant, between samples too. With any rounding, Always(Eventually(phi)) and Eventually(Always(phi)) have at every timestamp of phi the last value of phi.", "quantifier": "all formulas phi, psi with finite robustness from a common start, all traces, all instants of the common domain, both build modes; any rounding for the last claim", "why_tests_cant": "The deviation is only visible between samples, at instants that depend on the crossings; the inequalities are about all instants and all signals.", "anchors": ["src/robust_semantics/minmax.cc:91-105: compute_minmax_seq", "src/robust_semantics/minmax.cc:19-65: compute_minmax_pair", "src/robust_semantics/classic_robustness.cc:141-197: And, Or, Eventually, Always"]}
{"id": "C90", "title": "Until with a Boolean constant as an operand", "statement": "Claim: 'true U phi' has the robustness of Eventually(phi), 'false U phi' that of phi, 'phi U true' that of true and 'phi U false' that of false. All four are false. What the code computes, for every trace whose signals share start and end and every phi that is sampled at those: 'phi U true' and 'phi U false' are the same signal, +inf at the first and last sample of phi and NaN at all others. With M the greatest value of phi from a sample on and no NaN in phi, 'false U phi' is max(phi, -M) there, and so is 'true U phi' except at the last sample, where it is +inf, and at the first one, where it is max(phi, next value, -M).", "quantifier": "all formulas phi, all traces with a common start and end, all numbers of samples, infinite values included, every rounding of the arithmetic, both build modes", "why_tests_cant": "The value at a sample depends on all later samples through the greatest one; a test checks a single series.", "anchors": ["src/robust_semantics/classic_robustness.cc:31-54: compute_until", "src/robust_semantics/classic_robustness.cc:107-111: constants", "src/core/signal.cc:115-173: synchronize"]}
{"id": "C91", "title": "The order of the operands of And and Or does not change a sample", "statement": "Claim: And and Or compute the same samples whatever the order of their operands. This is false: in binary64 a tie of two operands makes the order visible (x = (0.1, 0), (1.1, 1) and y = (0.1, 0), (1.1, -2): And[x, y] has three samples, And[y, x] two), and with three operands the order is visible without rounding, as crossings of the first two are kept. What holds: for every rounding, two operands with finite timestamps and a common start are synchronised alike in either order, and if no two values at the same instant tie, exchanging them changes neither the signal nor the exception; in exact arithmetic exchanging two operands never changes a sample, ties included.", "quantifier": "all pairs of formulas, all traces, both build modes; any rounding for operands without ties, exact arithmetic for all finite operands", "why_tests_cant": "Whether the order is visible depends on the rounding of one quotient at a tie; random tests hardly ever hit a tie.", "anchors": ["src/robust_semantics/minmax.cc:19-65: compute_minmax_pair", "src/robust_semantics/minmax.cc:67-89: compute_minmax_pair of a vector", "src/core/signal.cc:115-173: synchronize"]}
{"id": "C92", "title": "White space and comments do not matter", "statement": "from_string does the same with two texts that differ only in layout between tokens, whether it accepts them or not: it returns the same specification or ends with the same exception (the type; messages and positions are not compared, see C110 for them). In particular: a stretch of white space and comments can be replaced by any other non-empty one; next to a parenthesis and at both ends of the text it can be left out; a comment at the end of the text need not be closed.", "quantifier": "all texts, also malformed ones, all ways to change their layout, every rounding, both build modes", "why_tests_cant": "Infinitely many texts and layouts; the skipping is spread over every terminal rule of the grammar, and a rule that forgets it fails only for one token in one context.", "anchors": ["src/parser/grammar.hpp:13-36: LineComment, Sep, Skip, EndOfWord, Symbol, Keyword", "src/parser/grammar.hpp:55-74: numerals", "src/parser/grammar.hpp:147-200: rules", "src/parser/actions.hpp:126-142: in.string() includes the layout"]}
{"id": "C93", "title": "How compute_robustness can fail: no assertion fails, debug and release builds agree, and which exceptions escape", "statement": "For all formulas and traces, well formed or not: no assertion of compute_robustness and of the functions it calls fails, so that debug and release builds do the same; if synchronize succeeds its results have equal timestamps. The only exceptions are std::invalid_argument (push_back), std::out_of_range (only if a signal used in the formula is missing in the trace) and std::logic_error; not_implemented_error is never thrown. If the intervals were made by the constructors of Interval, std::logic_error is not thrown either. For elementwise min and max of two signals with synchronized = true, a debug build aborts exactly if the sizes, begin times or end times differ.", "quantifier": "all formulas, all traces (malformed signals, NaN and infinities included), all roundings (sane for the exceptions, monotone for the last part), both build modes", "why_tests_cant": "An assertion that holds is visible only in the absence of failures, over all signals; NaN timestamps and differing ends take paths that few tests reach.", "anchors": ["src/core/signal.cc:115-173: synchronize", "src/robust_semantics/minmax.cc:19-65: assertions of the pairwise minmax", "src/robust_semantics/classic_robustness.cc:31-58: compute_until", "src/robust_semantics/classic_robustness.cc:141-212: operators, exceptions"]}
{"id": "C94", "title": "from_string rejects texts by parse_error, in debug and release builds alike", "statement": "If from_string does not accept a text, it throws a parse_error, and debug and release builds do the same. (False: see the note.)", "quantifier": "all texts, every rounding, both build modes", "why_tests_cant": "Rejections are scattered over map::at, std::stol, optional::value, the constructors of the AST and assertions; the tests of the repository only check that something is thrown for three files.", "anchors": ["src/parser/parser.cc:21-50: _parse and from_string", "src/parser/actions.hpp:126-231: numbers, PredicateTerm", "src/parser/actions.hpp:233-380: operators with assertions", "src/parser/actions.hpp:384-503: Term and commands"]}
{"id": "C95", "title": "A subformula can be evaluated on its own", "statement": "If the robustness signal s of a formula psi is put into the trace under a new name n, then a formula that uses n >= 0 (or n > 0) for psi and n <= 0 (or n < 0) for Not(psi) has the same outcome as the formula with psi written out: the same samples, bit for bit up to the sign of zero (C113), or the same failure. In particular reading a robustness signal back by n >= 0 does not change it.", "quantifier": "all formulas, traces with finite timestamps, names not in the trace, both builds, every odd and idempotent rounding (binary64 included)", "why_tests_cant": "It relates two evaluations of arbitrary formulas on arbitrary traces; it depends on every computed value being representable and on the result never reaching beyond the trace (otherwise the constants would get longer).", "anchors": ["src/robust_semantics/classic_robustness.cc:83-105: compute_robustness, range of the trace", "src/robust_semantics/classic_robustness.cc:107-131: constants and predicates", "src/robust_semantics/classic_robustness.cc:133-212: operators", "src/robust_semantics/minmax.cc:19-105: values of And, Or, Eventually, Always"]}
{"id": "C96", "title": "Definitions in a specification: inlining, unused, renaming, order, concatenation", "statement": "In accepted texts a formula can be replaced by its definition, an unused definition can be left out, formulas and assertions can be renamed, commands can be exchanged unless the second refers to the first, and two texts can be put together (with a line feed between them): the specification stays the same, or changes as expected; texts with a common name cannot be put together.", "quantifier": "all texts of the accepted language, every rounding, both builds (inlining: debug build, and release build for texts that the debug build accepts)", "why_tests_cant": "These are relations between two texts, for all positions in all texts with all layouts; they depend on the parser state being empty between commands and on lookups by name only.", "anchors": ["src/parser/actions.hpp:384-503: Term, DefineFormula, Assertion", "src/parser/grammar.hpp:182-200: commands, StatementList", "src/parser/parser.cc:21-50: _parse and from_string"]}
{"id": "C97", "title": "Robustness is the amount by which the thresholds can be tightened", "statement": "Relaxing all predicates of a formula without Until by the same amount d (under a negation: tightening) raises every value of the computed robustness by exactly d and changes no outcome, time or slope; so the robustness at a sample is the amount by which all thresholds can be tightened until the computed value is 0. If the predicates are relaxed by different amounts between lo and hi, the value at the start rises by an amount between lo and hi for combinations of formulas with the temporal operators on top. Both fail for what is excluded: with Until tightening can raise the value, and outside of these combinations relaxing one threshold can lower it.", "quantifier": "all formulas without Until (bounded intervals and constants included), all traces with finite timestamps, all d; exact arithmetic. Different amounts: all combinations of C61, all aligned traces, real numbers.", "why_tests_cant": "It relates evaluations of infinitely many formulas; crossings, windows and interpolated samples must be the same for every amount d.", "anchors": ["src/robust_semantics/classic_robustness.cc:113-139: Predicate and Not", "src/robust_semantics/classic_robustness.cc:31-54: compute_until, negated maximum", "src/robust_semantics/minmax.cc:19-163: And, Or, Always, Eventually"]}
{"id": "C98", "title": "Accuracy of And and Or in binary64", "statement": "If two subformulas have the same finite timestamps, and all times and values are away from overflow and underflow, then whenever the conjunction (disjunction) is computed in binary64 the resulting piecewise linear function differs from the minimum (maximum) of the two functions by at most 2^-47 V (1 + H/d) at every time, where V bounds the values, H the times, and d is the smallest distance between successive timestamps; the domain is unchanged. The factor H/d is needed: with values up to 3/2 and timestamps 2^52 and 2^52+1 the computed disjunction is 1/2 where it should be -1/2, and Always over it is reported as satisfied although it is violated.", "quantifier": "all pairs of formulas, traces and builds for which both subformulas return signals with the same timestamps, multiples of 2^-150 of magnitude at most 2^100, with binary64 rounding of every operation", "why_tests_cant": "It bounds the accumulated rounding error of slopes, crossing times and interpolated values at every real time for all inputs; the worst case needs crossings that are rounded before, onto and after samples.", "anchors": ["src/include/signal_tl/signal.hpp:27-39: interpolate and time_intersect", "src/robust_semantics/minmax.cc:19-65: compute_minmax_pair", "src/robust_semantics/classic_robustness.cc:141-169: And and Or"]}
{"id": "C99", "title": "Verdicts with a margin in binary64", "statement": "For a conjunction or disjunction of two predicates (possibly negated), below any number of Not and of Always and Eventually over [0, inf), on signals sampled at the same times (magnitude at most H, at least d apart, values and thresholds of magnitude at most V, away from overflow and underflow): every sample of the robustness computed in binary64 is within 2^-45 V (1 + H/d) of the robustness over the real numbers quantified over all real times. So a computed value above this bound implies that the formula holds at that time, and one below its negation implies that it does not. Without a margin the verdict can be wrong: Always(x >= 0 or y >= 0) is computed as 1/2 on a trace which violates it.", "quantifier": "all formulas of this shape, traces, builds and values of V, H and d, for which the call returns, with binary64 rounding of every operation, against dense-time semantics over the reals", "why_tests_cant": "The reference value is a supremum or infimum over all real times of exact reals, and the bound has to hold for every combination of roundings of crossings and interpolated values.", "anchors": ["src/robust_semantics/classic_robustness.cc:113-197: predicates, Not, And, Or, Eventually and Always", "src/robust_semantics/minmax.cc:19-105: compute_minmax_pair, the fold over operands and compute_minmax_seq", "src/include/signal_tl/signal.hpp:27-39: interpolate and time_intersect"]}
{"id": "C100", "title": "Thresholds written as decimal numerals", "statement": "The threshold of a parsed predicate is the binary64 number nearest to the decimal number that is written, with relative error at most 2^-53; binary64 numbers and integers up to 2^53 are kept exactly. Order is preserved (weakly) for all numerals. Numerals with at most 15 significant digits are kept apart: two texts differing only in the numeral give the same specification exactly if they denote the same number, and otherwise the thresholds are in the order of the numbers. With 16 or 17 digits this fails: 9007199254740993 is read as 9007199254740992, and 0.10000000000000001 as 0.1.", "quantifier": "all numerals in the normal range of binary64 (integers below 2^63), all comparison operators, names, layouts and builds, and every implementation of strtod that rounds correctly and reports an underflow only below the normal range", "why_tests_cant": "It is a statement about all pairs of decimal numerals; the separation of 15 digits depends on the worst case of spacing between decimal and binary numbers over the whole exponent range.", "anchors": ["src/parser/actions.hpp:126-142: stol and stod", "src/parser/grammar.hpp:53-82: numerals", "src/parser/parser.cc:21-50: from_string"]}
{"id": "C101", "title": "From the text to the verdict in binary64", "statement": "Parse a text in binary64 and take an assertion that, after unfolding definitions, is a Boolean combination of Not, Always and Eventually over predicates. Compute its robustness on a trace of doubles whose signals all end at the same time T. At every instant t at which all signals used have a sample the result has exactly one sample, not NaN; if its value is positive, then what is written, with the decimal thresholds as they stand in the text, evaluated over the real numbers in dense time, holds at t, and if it is negative then it does not hold. This needs no assumption on the numerals (length, range, rounding) and no margin.", "quantifier": "all texts of such specifications that the parser accepts in binary64, all traces of doubles with finite timestamps, all sample instants, both builds, binary64 rounding of every operation and of every numeral, every choice of strtod when to report an underflow", "why_tests_cant": "The thresholds in the text are decimals that are in general not doubles, and the meaning quantifies over the real line; a test compares one rounded result with another rounded result.", "anchors": ["src/parser/parser.cc:21-50: from_string", "src/parser/actions.hpp:126-142: numeric literals", "src/robust_semantics/classic_robustness.cc:83-197: robustness of predicates, Not, And, Or, Always and Eventually"]}
{"id": "C102", "title": "The class invariant of Signal", "statement": "Every signal that a program can obtain from the public members of Signal, synchronize and compute_robustness, in any order and number of calls, has strictly increasing timestamps, and its derivatives are the slopes of the segments. (False in binary64: shift and resize_shift add dt to every timestamp and round, so that different timestamps can become equal; such a signal cannot be copied or shifted again, the copy constructor throws. It holds of all other members for every rounding, and of all of them in ideal arithmetic; with a bound on the spacing the timestamps stay increasing in binary64.)", "quantifier": "all finite sequences of calls with arbitrary arguments (finite shifts); every rounding", "why_tests_cant": "It is an invariant over all programs that use the class; the violation needs timestamps that are close relative to the shift.", "anchors": ["src/core/signal.cc:102-113: shift and resize_shift", "src/include/signal_tl/signal.hpp:75-260: Signal"]}
{"id": "C103", "title": "Algebra of resize, shift, simplify and synchronize", "statement": "resize_shift is resize followed by shift, for every rounding, including the exceptions. In ideal arithmetic, shifting commutes with resizing (to the shifted interval), simplifying and synchronizing, with the same exceptions; and if resizing to [a, b] restricts a signal, then resizing the result to [a', b'] is resizing to [a', min(b, b')].", "quantifier": "all well-formed non-empty signals, all arguments", "why_tests_cant": "Algebraic laws between all signals and all arguments.", "anchors": ["src/core/signal.cc:54-113: simplify, resize, shift, resize_shift", "src/core/signal.cc:115-173: synchronize"]}
{"id": "C104", "title": "compute_max_seq and compute_min_seq on one signal, and element access", "statement": "compute_max_seq(x) and compute_min_seq(x) return a signal with the timestamps of x whose value at each sample is the greatest, respectively least, of the values of x from that sample on, for every rounding; in dense time it is the greatest, respectively least, value of the function x from then on. On an empty signal both are undefined behaviour. front() and back() are the elements with the first and the last index, begin_time() and end_time() are their times; at_idx(i) throws out_of_range exactly if i is not less than size().", "quantifier": "all well-formed signals without NaN; every index", "why_tests_cant": "All signals of every length; the greatest value in dense time is over infinitely many times.", "anchors": ["src/robust_semantics/minmax.cc:91-105: minmax_seq", "src/robust_semantics/minmax.cc:165-171: compute_max_seq, compute_min_seq", "src/include/signal_tl/signal.hpp:76-106: begin_time, end_time, front, back, at_idx"]}
{"id": "C105", "title": "Implies, Xor and Iff as numbers", "statement": "Implies(a, b), Xor(a, b) and Iff(a, b) can be built of any formulas without Boolean constants, also if a or b are themselves conjunctions or disjunctions into which & and | merge. Where a and b are defined, with robustness x and y there, the robustness of Implies is max(-x, y); that of Xor has the absolute value min(|x|, |y|) and is positive exactly if x and y have different signs and negative exactly if they have the same sign; that of Iff is its negation.", "quantifier": "all formulas without Boolean constants, all traces whose signals start together, ideal arithmetic", "why_tests_cant": "All formulas, including the cases in which the arguments of And and Or are merged, and all times.", "anchors": ["src/core/ast.cc:125-135: Implies, Xor, Iff", "src/core/ast.cc:31-98: AndHelper, OrHelper, operator&, operator|, operator~"]}
{"id": "C106", "title": "The search of mono_wedge.h with 64-bit integers", "statement": "mono_wedge_search computes with the unsigned 64-bit type of differences of iterators; mono_wedge_update has a loop that decrements an unsigned counter past zero. For every wedge with fewer than 2^63 elements, every comparison and every value: no difference that is used wraps around, no shift is by the width of the type or more, no iterator is moved before begin(), the search ends after at most 63 rounds, and position and updated wedge are those computed with natural numbers. The two overloads of mono_wedge_update give the same wedge.", "quantifier": "all wedges of fewer than 2^63 elements, all comparison functions (also ones that are not orders), all values", "why_tests_cant": "Sizes near 2^63 cannot be allocated, and the claim is about every comparison function.", "anchors": ["src/robust_semantics/mono_wedge.h:85-102: mono_wedge_search", "src/robust_semantics/mono_wedge.h:123-128: mono_wedge_update", "src/robust_semantics/mono_wedge.h:169-176: mono_wedge_update (rvalue)"]}
{"id": "C107", "title": "Parsing takes linear time", "statement": "The number of characters that from_string examines (repeated examinations, looks at the end of the input and the characters read again by std::stod and std::stol included) is at most 300 times the length of the input plus 3, whether the input is accepted or rejected. So the backtracking of the grammar (eleven alternatives for an expression, each predicate tried in two forms, each number in three) is never exponential or quadratic. The counting parser returns what the parser returns.", "quantifier": "all texts, both build modes", "why_tests_cant": "All texts, also rejected ones; exponential backtracking shows only on nested inputs of a special form.", "anchors": ["src/parser/grammar.hpp:13-200: the grammar", "src/parser/parser.cc:21-50: from_string", "src/parser/actions.hpp:126-142: stol, stod"]}
{"id": "C108", "title": "Polynomially many samples", "statement": "Boolean operators add few samples, however deeply they are nested: if the m predicates and temporal subformulas that are combined by Not, And and Or have N samples in all, the result has at most N*(1 + m*(m-1)/2) samples, because each sample is a sample of one of them or a crossing of two of them, and two of them cross at most once between neighbouring samples. Temporal operators add no samples. So with signals of at most n samples, p predicates and temporal operators nested d deep the result has at most n*p^(2d+3) samples. (The bound of C63 doubles with every operand.)", "quantifier": "all plain formulas, all traces of well-formed finite signals that begin at the same time, ideal arithmetic", "why_tests_cant": "A worst case over all formulas and signals; exponential growth shows only for particular nestings.", "anchors": ["src/robust_semantics/minmax.cc:19-66: compute_minmax_pair", "src/robust_semantics/minmax.cc:68-90: compute_minmax_pair (vector)", "src/robust_semantics/classic_robustness.cc:107-212"]}
{"id": "C109", "title": "Evaluation takes polynomially many rounds", "statement": "Every operation on signals (the constructor, synchronize, compute_minmax_pair, compute_minmax_seq without a window, compute_until, negation) takes a number of loop rounds that is linear in the sizes of its operands, however it ends and with any rounding. Evaluating a formula takes at most one round for each signal of the trace and (11 s + 9) rounds for each node, where s is the bound of C63 on the number of samples; for plain formulas on signals that begin together, at most 20 n p^(2d+3) rounds for each node, with signals of at most n samples, p predicates and temporal operators nested d deep. The counted rounds are those of the model: the counting version has the same outcome, and successful calls are proved to be counted in full.", "quantifier": "all formulas, all traces with finite timestamps and any rounding for the first bound; plain formulas, well-formed finite signals that begin at the same time and ideal arithmetic for the second one", "why_tests_cant": "A worst case over all formulas and signals; measurements cannot tell a large polynomial from an exponential function.", "anchors": ["src/core/signal.cc:31-48: push_back", "src/core/signal.cc:115-173: synchronize", "src/robust_semantics/minmax.cc:19-89: compute_minmax_pair", "src/robust_semantics/minmax.cc:91-105: compute_minmax_seq", "src/robust_semantics/classic_robustness.cc:31-54: compute_until", "src/robust_semantics/classic_robustness.cc:77-212"]}
{"id": "C110", "title": "Messages of parse errors are true of the text", "statement": "Every parse_error of from_string carries one of the messages of error_messages.hpp or of the actions, and what the message claims is true of the text at the reported place: the place is behind the keyword or symbol that makes the parser expect something, and what is expected (a name, a term, a number, a closing parenthesis, a known command) does not begin there; a reported redefinition is at a command that defines the reported name. Two messages never appear: the one about whitespace, and the one meant for unclosed commands (an unclosed command is reported as an unknown command at the end of the text). The number in 'expected at least 2 terms, got N' is always 1. All other messages do appear. Different messages have different texts, so the text of the exception tells what went wrong.", "quantifier": "all texts, debug and release builds", "why_tests_cant": "The grammar has many ways to fail in nested alternatives, and which message wins depends on how far every alternative got; that two messages are unreachable is a statement about all texts.", "anchors": ["src/parser/error_messages.hpp:22-77", "src/parser/actions.hpp:249-285", "src/parser/actions.hpp:455-505", "src/parser/grammar.hpp:17-180"]}
{"id": "C111", "title": "Shared signals are never changed behind the caller's back", "statement": "Evaluating a formula, copying, simplifying, resizing, shifting and synchronizing signals and taking minima and maxima of two signals changes no signal that existed before and returns a signal that did not exist before, with the same samples as if every shared_ptr were a private copy; this holds although the same signal may occur under several names, as both operands, or as operand and result of a step. In a program that makes any sequence of these calls with any pointers, a signal changes only by push_back to that very object. The one place where a result is the operand itself is the minimum or maximum of a vector with one signal.", "quantifier": "all memories, traces of pointers (with any aliasing), formulas, number types, roundings and sequences of calls", "why_tests_cant": "A test compares values for a few arrangements of pointers; interference between aliases depends on which objects are shared and on the order of calls.", "anchors": ["src/include/signal_tl/signal.hpp:62-263", "src/core/signal.cc:16-175", "src/robust_semantics/minmax.cc:19-145", "src/robust_semantics/classic_robustness.cc:31-214", "python_bindings/pysignal.cc:44-68"]}
{"id": "C112", "title": "Null signal pointers and invalid iterators", "statement": "If the trace holds a null signal pointer under any name, compute_robustness dereferences it whatever the formula is, even if the formula does not mention the name. If no pointer of the trace is null, no null pointer is dereferenced and no iterator is used after the vector it walks over has been appended to.", "quantifier": "all memories, traces of pointers, formulas, number types and roundings", "why_tests_cant": "Absence of undefined behaviour over all arrangements of pointers cannot be observed by running examples.", "anchors": ["src/robust_semantics/classic_robustness.cc:83-105", "src/core/signal.cc:16-175"]}
{"id": "C113", "title": "The sign of zero does not matter, except that And may throw", "statement": "With IEEE doubles, which have +0.0 and -0.0, the functions of Signal, synchronize, the sliding and unbounded minimum and maximum, the elementwise maximum and Until give the same results up to the signs of zeros as with a single zero. compute_robustness of any formula over finite timestamps returns the same signal up to the signs of zeros, or throws std::invalid_argument; the latter happens in binary64, for And of two finite signals whose slopes underflow to -0.0 and +0.0, because the crossing time is computed as a negative number over -0.0. With exact arithmetic there is no exception.", "quantifier": "all signals, formulas, traces with finite timestamps and signs of zeros; any monotone rounding with gradual underflow", "why_tests_cant": "Tests compare doubles with ==, which does not tell the zeros apart; the exception needs slopes below the smallest positive double.", "anchors": ["src/include/signal_tl/signal.hpp:24-66", "src/core/signal.cc:14-173", "src/robust_semantics/minmax.cc:19-145", "src/robust_semantics/classic_robustness.cc:31-214"]}
{"id": "C114", "title": "When evaluation is free of undefined behaviour", "statement": "Let the timestamps of the trace be finite. If the signals named in a formula (and, if it has Boolean constants, the signal of a constant, with samples at the smallest begin time and the largest end time of the trace) are not empty, and of any two of them both have a sample where the later one begins, then compute_robustness returns a signal or throws an exception: no undefined behaviour, no failed assertion, no endless loop. In exact arithmetic, for formulas without constants over well-formed finite signals, it returns a signal, whose domain is the intersection of the domains. Conversely, for predicates over two well-formed signals that do not meet the condition neither And nor Or nor Until has a value, and in one order of the operands the behaviour is undefined.", "quantifier": "all formulas with the arity of the constructors, traces and intervals; any sane rounding", "why_tests_cant": "Undefined behaviour may look like success, and the condition has to survive every operator for formulas of any size.", "anchors": ["src/core/signal.cc:101-173", "src/robust_semantics/minmax.cc:19-105", "src/robust_semantics/classic_robustness.cc:31-214"]}
{"id": "C115", "title": "The parser is the PEG grammar as written", "statement": "Take the rules of grammar.hpp as data (one PEG expression for each struct), the actions of actions.hpp as a table, and a general interpreter for PEG combinators that knows nothing of this grammar. For every text and both builds, the interpreter gives exactly the result of the parser model used by all other properties (the same specification, the same exception, the same failed assertion), given enough fuel; with less fuel it does not end, but never gives another result.", "quantifier": "all texts, both builds, every amount of fuel", "why_tests_cant": "Two parsers can agree on every test and differ on one nesting or one blank.", "anchors": ["src/parser/grammar.hpp:25-204", "src/parser/actions.hpp:62-505", "src/parser/parser.cc:21-42"]}
{"id": "C116", "title": "The grammar has no issues and the check for that is sound", "statement": "A check in the manner of peg::analyze (no rule can call itself, and no loop can go round, without consuming a character) finds no issue in grammar.hpp. The check is sound for every PEG grammar: if it finds none and the actions come back, every rule comes back on every input. So every rule of grammar.hpp ends on every text from every parser state. A left-recursive rule and a loop over an optional rule are found by the check, and they end on no input.", "quantifier": "all grammars, inputs and parser states", "why_tests_cant": "The unit test asserts that analyze returns 0, not that this means termination; endless loops cannot be observed.", "anchors": ["src/parser/parser.cc:62-64", "tests/test_parser.cc:14-20", "src/parser/grammar.hpp:25-204"]}
{"id": "C117", "title": "The depth of recursion of the parser", "statement": "Let the parser run with a limited stack (rules that are open at the same time). For every text a depth of 144 times the nesting of its parentheses (comments aside) plus 193 is enough, whatever the length of the text, and gives the usual result; a smaller stack overflows or gives the same result. The depth has to grow with the nesting: a formula with n nested negations needs more than 10 n. So no fixed stack is enough for all specifications that from_string accepts: deeply nested input overflows the stack.", "quantifier": "all texts, both builds, every depth", "why_tests_cant": "Stack overflow depends on the platform and on inputs far larger than any test file; the bound is over all texts.", "anchors": ["src/parser/grammar.hpp:98-200", "src/parser/parser.cc:21-42"]}
{"id": "C118", "title": "Where a parse error is reported, and that it is final", "statement": "The line and column of a parse error are those of the reported place in the text (lines and columns count from 1, a line ends with a newline), and they identify the place. An error of the grammar is decided by the text up to the next word after the place and two more characters: every text that agrees up to there is rejected with the same message at the same line and column, so nothing that follows or is appended can repair it. Only after a comparison symbol followed by a name is it the next word but one, and the errors of actions (too few operands, redefinition) are about a whole expression or command; both exceptions are needed.", "quantifier": "all texts and all continuations of them, both builds", "why_tests_cant": "The claim is about every way in which a rejected text could go on.", "anchors": ["src/parser/parser.cc:21-55", "src/parser/grammar.hpp:13-200", "src/parser/error_messages.hpp:22-63"]}
{"id": "C119", "title": "Accuracy of And and Or in binary64 on signals with different timestamps", "statement": "Synchronising two signals with different timestamps changes their values by at most 15/2^53 times their largest magnitude V, at every time of the common domain. The conjunction or disjunction computed from them is within 2^-46 V (1 + H/d) of the exact minimum or maximum of the two signals at every time of the common domain, where H bounds the times and d is the smallest distance of different timestamps.", "quantifier": "all operand signals whose times and values are zero or of magnitude between 2^-48 and 2^40, any number of samples, both builds", "why_tests_cant": "An error bound for all inputs and all real times between the samples; tests see sampled inputs.", "anchors": ["src/core/signal.cc:115-173: synchronize", "src/include/signal_tl/signal.hpp:27-39: interpolate and time_intersect", "src/robust_semantics/minmax.cc:19-65: compute_minmax_pair"]}
{"id": "C120", "title": "Accuracy and verdicts of nested formulas in binary64", "statement": "For Not, And and Or with any number of operands nested to any depth, below any number of Always and Eventually over [0, inf), on signals with the same domain but possibly different timestamps: if the signals computed for the operands of each And and Or have values of magnitude at most V, times of magnitude at most H and different timestamps at least d apart, every sample of the computed robustness is within (k+1) 2^-46 V (1 + H/d) of the dense-time robustness over the reals, where k is the number of And and Or steps on the longest path. So the formula holds if the computed value is above that bound and does not hold if it is below its negation.", "quantifier": "all such formulas and traces whose computed operands are zero or of magnitude between 2^-48 and 2^40, both builds", "why_tests_cant": "The exact robustness over all real times cannot be computed by running the code, and the claim is for every depth and every number of samples.", "anchors": ["src/robust_semantics/classic_robustness.cc:133-198", "src/robust_semantics/minmax.cc:19-105", "src/core/signal.cc:115-173"]}
{"id": "C121", "title": "The parser takes linear time", "statement": "On a text of n characters the parser tries at most 200 n + 60 rules (combinators and rounds of loops included), whether the text is accepted, rejected or ends in an exception of an action, and the parse that takes them is the one whose result from_string returns. A text that is accepted takes at least one for every 14 characters. So backtracking without memory does not make the parser exponential. The same machine does take at least 2^n calls for 2n + 1 characters with another grammar, whose alternatives begin alike.", "quantifier": "all texts, both builds", "why_tests_cant": "A slow input need not be among those that are tried, and a time measured for some lengths does not bound the time for all.", "anchors": ["src/parser/grammar.hpp:13-200", "src/parser/parser.cc:21-42"]}
{"id": "C122", "title": "Parsing a file, and what the example program shows", "statement": "from_file does on a file what from_string does on its contents; trace_from_file returns true for exactly the files that are accepted, and never false; the message of a parse error differs only in the name of the source. The program examples/basic_parsing.cc exits with 0 exactly for an accepted file and with 1 exactly for a parse error or a wrong number of arguments. For a parse error it prints the message, the whole line of the text in which the error is, and below it a caret under the character at which the error is. For an accepted file it prints every formula once, in the strict order of the names; two accepted files have the same output exactly if they define the same formulas in some order (formulas up to the brackets around Until, which are not printed).", "quantifier": "all files, all specifications, all arguments, both builds", "why_tests_cant": "The error can be at any place of any text (first or last line, end of line, carriage returns), and that the output determines the definitions is a statement about pairs of files.", "anchors": ["src/parser/parser.cc:47-73", "examples/basic_parsing.cc:17-41"]}
{"id": "C123", "title": "The example program reports every error of a specification", "statement": "For every file examples/basic_parsing.cc ends with status 0 or 1. (False: it is terminated by an uncaught exception, without showing a place, for a file that cannot be read, an undefined name, an empty term, a large numeral, a reversed predicate and some exclusive ors; and a debug build can fail an assertion.)", "quantifier": "all files, both builds", "why_tests_cant": "The exceptions depend on the text; the tests only demand that something is thrown.", "anchors": ["examples/basic_parsing.cc:23-38", "src/parser/actions.hpp:78-420"]}
{"id": "C124", "title": "Formulas in Python", "statement": "In Python the attributes of the classes of formulas are the parts of the node with these names; &, | and ~ have their Boolean meaning; and comparisons with a predicate, also in a range c < p < d, mean what they say. (False: `interval` of Always, Eventually and Until is the operand, never the interval; & and | raise ValueError in exactly two cases; and only the last comparison counts, so 0 < p < 1 is p < 1.)", "quantifier": "all formulas, all attribute names, all bounds", "why_tests_cant": "There are no tests of the Python bindings, and a test would have to look at each attribute of each class.", "anchors": ["python_bindings/pyast.cc:25-38", "python_bindings/pyast.cc:53-132", "src/core/ast.cc:11-25"]}
{"id": "C125", "title": "And and Or do not fail in binary64 on signals that differ clearly", "statement": "If at every timestamp after the first common one the two operands (interpolated where necessary) differ by more than 2^-46 V (1 + H/d), where V bounds the values, H the times and d is the smallest distance of different timestamps, and if the later one of the two begin times is a timestamp of both operands, then in binary64 arithmetic the conjunction and the disjunction return a result, and it is within 2^-46 V (1 + H/d) of the exact minimum or maximum at every time of the common domain. A margin of this kind is needed: with V = 2, H = d and a difference of 2^-52 a disjunction throws.", "quantifier": "all operand signals whose times and values are zero or of magnitude between 2^-48 and 2^40, any number of samples, both builds", "why_tests_cant": "Whether the code throws depends on the last bits of rounded slopes; no sample of inputs shows that a margin suffices for all.", "anchors": ["src/include/signal_tl/signal.hpp:27-39: interpolate and time_intersect", "src/robust_semantics/minmax.cc:19-65: compute_minmax_pair", "src/core/signal.cc:115-173: synchronize"]}
{"id": "C126", "title": "simplify() and area() in binary64", "statement": "For every rounding simplify() succeeds and its points are a sub-sequence of the points of the signal with the same first and last point. In binary64 arithmetic, for times and values of magnitude at most 2^1022, the domain is unchanged and the function changes by at most 2^-1074 L anywhere, where L bounds the distance of successive timestamps; it does not change at all unless a slope that is not zero underflows (there is a signal whose slope underflows and whose function changes); and a second call of simplify() changes nothing. area(t) up to a time t of a segment that starts at the point (t_i, v_i) differs from the area (v_i + f(t)) / 2 * (t - t_i) of the trapezium by at most 2^-49 V (t - t_i), where V bounds the values.", "quantifier": "all signals with any number of samples; simplify(): all doubles of magnitude at most 2^1022; area(): all times and values that are multiples of 2^-100 of magnitude at most 2^40", "why_tests_cant": "simplify() decides by equality of computed values and slopes; whether a rounded slope is zero while the line is not flat depends on underflow in cases that sampled inputs do not reach, and an error bound is a statement about all inputs.", "anchors": ["src/core/signal.cc:54-67: Signal::simplify", "src/include/signal_tl/signal.hpp:27-30: interpolate", "src/include/signal_tl/signal.hpp:41-47: area"]}
{"id": "C127", "title": "Formulas without And and Or in binary64", "statement": "Let a formula consist of predicates, Not, Always, Eventually and Until, nested in any way. Its evaluation in binary64 arithmetic succeeds if and only if the evaluation in exact arithmetic succeeds. If so, both results have the same timestamps, and at every time of the domain they differ by at most (V + C) ((1 + 2^-49)^(n+1) - 1), hence by at most (n+1) 2^-48 (V + C), where V bounds the values of the trace, C bounds the constants, and n is the number of nested operators Until. The number of samples, the distance of the timestamps and the number of other operators do not matter.", "quantifier": "all formulas without And, Or and constants, with all intervals, of any size; all traces with any number of signals and samples, with values and constants that are doubles with 2^-900 <= V + C and (V + C)(1 + 2^-49)^(n+1) <= 2^900, and timestamps that are multiples of 2^-100 of magnitude at most 2^100", "why_tests_cant": "Rounding of the interpolated values, including underflow of a slope, accumulates over nested operators; the bound and the agreement of success hold for all formulas and traces, of which tests reach few, and tests have no exact evaluation to compare with.", "anchors": ["src/robust_semantics/classic_robustness.cc:31-54: compute_until", "src/robust_semantics/classic_robustness.cc:113-139: Predicate, Not", "src/robust_semantics/classic_robustness.cc:161-212: Eventually, Always, Until", "src/core/signal.cc:115-173: synchronize", "src/include/signal_tl/signal.hpp:27-29: interpolate"]}
{"id": "C128", "title": "Violations of Until are reported rightly", "statement": "Let a formula consist of predicates, Not, Always, Eventually and Until, nested in any way, with Eventually and Until below an even number of negations (and Always below an odd number; Always and Eventually without an interval may be anywhere), and let all its signals have the same timestamps. Then the computed robustness is defined, has these timestamps, and at every sample is at least the dense-time robustness; so a negative value means that the formula is violated at this time, and negative values at two successive samples that it is violated at all times between them. With the other parities a positive value means that the formula is satisfied. In binary64 a value below -(n+1) 2^-48 (V + C) means that the formula is violated. Between samples of different sign the sign means nothing, and with different timestamps the claim fails already for two nested operators Until.", "quantifier": "all such formulas of any size with any intervals, all traces of any number of signals with the same timestamps and any number of samples, all real times between two samples; in binary64 values V, constants C and nesting n as in C127", "why_tests_cant": "The claim compares the result with the semantics at all real times, a quantifier over a continuum, for formulas of any nesting; the computed value of Until is wrong in general (C32), so tests that compare values find differences without telling which verdicts can be trusted.", "anchors": ["src/robust_semantics/classic_robustness.cc:31-54: compute_until", "src/robust_semantics/classic_robustness.cc:199-212: Until", "src/robust_semantics/classic_robustness.cc:113-139: Predicate, Not", "src/robust_semantics/classic_robustness.cc:161-197: Eventually, Always"]}
{"id": "C129", "title": "Violations of Until with And and Or and different timestamps", "statement": "Let the signals of a trace start and end at the same times, with any timestamps in between. For an Until whose operands consist of predicates, And, Or, Not (below which the roles of the operators are exchanged) and Eventually, below any number of Not, Always and Eventually (with an interval: Eventually below an even number of negations, Always below an odd one), the computed robustness is at every sample at least the dense-time robustness, and between two successive samples the dense-time robustness is at most the greater one of their values; so negative values mean that the formula is violated. For any combination of such formulas by And, Or and Not this holds at the start of the trace. With the other parities positive values mean that the formula is satisfied.", "quantifier": "all formulas of these forms of any size with any intervals, all traces of any number of signals with the same first and last timestamp and any number of samples, numbers of any ordered field, all real times between two samples", "why_tests_cant": "The claim compares the result with the semantics at all real times, a quantifier over a continuum, for all formulas of the form and all timestamps of the signals; the computed value of Until is wrong in general (C32), so a test needs to know which verdicts can be trusted.", "anchors": ["src/robust_semantics/classic_robustness.cc:31-54: compute_until", "src/robust_semantics/classic_robustness.cc:199-212: Until", "src/robust_semantics/classic_robustness.cc:141-197: And, Or, Eventually, Always", "src/core/signal.cc:115-175: synchronize"]}
{"id": "C130", "title": "The kind of the numbers does not matter", "statement": "Let a map of one ordered field into another one preserve sums, products, the order and the rounding. Replacing all numbers of a formula and of a trace by their images replaces all numbers of the robustness by their images and changes nothing else: the same number of samples, and the same exception, assertion failure or undefined behaviour if there is one. So for a trace of rational numbers the exact evaluation gives rational numbers that are the same as in real arithmetic, and the guarantees for real-valued traces hold for it: the robustness computed with rational numbers is a lower bound for safety formulas at every real time (positive: satisfied), and an upper bound for co-safety formulas (negative: violated). Joined by straight lines the samples are the dense-time robustness of formulas of predicates, Not, And and Or; every sample is the dense-time robustness at its time for nested Always, Eventually and Not without intervals around such formulas; and for combinations of those by And, Or and Not the first sample is the dense-time robustness at the start of the trace. If the rounding is different the first claim fails.", "quantifier": "all formulas, all traces (also with infinite values, NaN and signals that are not well formed), all build flags and flags for synchronized operands, all ordered fields with any rounding; for the guarantees all safety formulas with any intervals, all real times", "why_tests_cant": "A test runs with one kind of numbers on one trace at a time; real numbers cannot be computed with at all, so that results for rational traces agree with the real-valued semantics can only be proved.", "anchors": ["src/robust_semantics/classic_robustness.cc:60-214: RobustnessOp, compute_robustness", "src/robust_semantics/minmax.cc:20-181: compute_minmax_pair, compute_minmax_seq", "src/core/signal.cc:14-175: at, simplify, resize, synchronize", "src/include/signal_tl/signal.hpp:20-62: Sample"]}
{"id": "C131", "title": "What the code computes for all formulas in the limit of fine sampling", "statement": "Translate a formula by giving every Always and Eventually the interval [0, inf) and by replacing every (e U e') by e'' or (e U e'') or G e, where e'' is (e' or G not e'). For every formula without Boolean constants, with any intervals, the robustness that the code computes differs at every real time from the dense-time robustness of the translated formula by at most d*s/4, where s is the greatest difference of neighbouring samples of a signal and d counts the nested temporal operators (Until counts four); a computed value beyond this bound gives the verdict on the translated formula by its sign. For Lipschitz signals sampled at times at most h apart the error is at most (d/4 + 1/2) L h, and for continuous signals the computed robustness converges uniformly to the robustness of the translated formula. The translation changes nothing without Until and intervals. The limit is not the robustness of the formula: there are signals for which every sampling gives 1 for an Until whose robustness is -1.", "quantifier": "all formulas that the constructors can make without Boolean constants, all traces of any number of signals with the same first and last timestamp and any timestamps in between, all real times, all continuous signals and all samplings", "why_tests_cant": "The claim is about all real times and about limits of ever finer samplings of arbitrary continuous signals; tests see finitely many samplings of finitely many signals.", "anchors": ["src/robust_semantics/classic_robustness.cc:31-54: compute_until", "src/robust_semantics/classic_robustness.cc:199-212: Until", "src/robust_semantics/classic_robustness.cc:140-197: And, Or, Eventually, Always", "src/robust_semantics/minmax.cc:20-181: compute_minmax_pair, compute_minmax_seq", "src/core/signal.cc:115-173: synchronize"]}
{"id": "C132", "title": "The whole error of doubles, sampling and measurement against the dense-time semantics", "statement": "For formulas of predicates, Not, Always, Eventually and Until, nested in any way and with any intervals, on traces whose signals have the same first and last timestamp, the evaluation in binary64 arithmetic succeeds, and joined by straight lines its result differs at every real time from the dense-time robustness of the translated formula of C131 by at most d*s/4 + (n+1)*2^-48*(V+C), where s bounds the differences of neighbouring samples, d counts the nested temporal operators (Until counts four), n the nested operators Until, and V and C bound the values and constants. A computed value beyond this bound gives the verdict on the translated formula by its sign. If the samples are measurements, off by at most e, of signals that are Lipschitz with constant L, at times at most h apart, the result differs from the robustness of the translated formula on the true signals by at most (d/4 + 1/2)*L*h + (d/2 + 1)*e + (n+1)*2^-48*(V+C).", "quantifier": "all formulas without And, Or and Boolean constants that the constructors can make, all traces of any length and number of signals whose values are doubles with 2^-900 <= V+C <= 2^899 and whose times are multiples of 2^-100 of magnitude at most 2^100, all real times, all Lipschitz signals", "why_tests_cant": "The reference is a supremum over a continuum of times of signals that the program never sees; tests can only compare doubles with other computed numbers, for finitely many traces.", "anchors": ["src/robust_semantics/classic_robustness.cc:31-54: compute_until", "src/robust_semantics/classic_robustness.cc:113-139: Predicate, Not", "src/robust_semantics/classic_robustness.cc:163-212: Eventually, Always, Until", "src/robust_semantics/minmax.cc:20-181: compute_minmax_pair, compute_minmax_seq", "src/core/signal.cc:115-173: synchronize"]}
{"id": "C133", "title": "One-sided verdicts of doubles on formulas with intervals", "statement": "The code ignores the intervals of formulas, so only one of the two verdicts can be trusted (C39, C40, C129). In binary64 arithmetic the same verdicts hold with a margin for rounding. For formulas of predicates, Not, Always and Eventually with any intervals, in which Always occurs only positively and Eventually only negatively, the value computed at any real time exceeds the dense-time robustness of the formula by at most 2^-48*(V+C), so a larger value means that the formula, with its intervals, is satisfied; for their negations a value below -2^-48*(V+C) means that it is violated. For formulas with one level of Until a value below -2^-47*(V+C) at a sample means that the formula is violated there, and such values at two neighbouring samples that it is violated at all times between them. If And and Or are applied outside of the temporal operators, then at a time at which all signals used have a sample no margin is needed: the sign of the double decides.", "quantifier": "all such formulas with any intervals the constructors can make, all traces of any length and number of signals whose values are doubles (for the margins: with 2^-900 <= V+C <= 2^899 and times that are multiples of 2^-100 of magnitude at most 2^100), all real times", "why_tests_cant": "The verdict is about all times of a continuous interval, and the smallest value that can be trusted is decided by the worst accumulation of roundings over all traces.", "anchors": ["src/robust_semantics/classic_robustness.cc:31-54: compute_until", "src/robust_semantics/classic_robustness.cc:113-162: Predicate, Not, And, Or", "src/robust_semantics/classic_robustness.cc:163-212: Eventually, Always, Until", "src/robust_semantics/minmax.cc:20-181: compute_minmax_pair, compute_minmax_seq"]}
{"id": "C134", "title": "A stronger formula gets a smaller robustness", "statement": "If the dense-time robustness of one formula is at most the one of another on the given signals, then the computed robustness of the first is at most the one of the second; in particular, equivalent ways of writing a formula (distributivity, De Morgan, absorption, any order of operands) get equal values. In exact arithmetic this holds at every real time for formulas of predicates, Not, And and Or, at common timestamps for Always and Eventually over [0, inf) above such formulas, and at the first timestamp for combinations of those; there the computed values are ordered exactly if the robustness is. For all formulas without Boolean constants it holds for the translated formulas of C131 up to (d+d')*s/4, in binary64 without And and Or up to (d+d')*s/4 + (n+n'+2)*2^-48*(V+C), and in binary64 with And and Or below Always and Eventually at common timestamps up to (k+k'+2)*2^-46*V*(1+H/d), with the numbers of C131, C132 and C120.", "quantifier": "all pairs of formulas of these shapes, all traces whose signals have the same first (and, with temporal operators, last) timestamp, all times as stated", "why_tests_cant": "Equivalence of formulas is a statement about all signals and all real times; a test compares two given formulas on a few traces and cannot tell a rounding difference from a wrong one without a bound.", "anchors": ["src/robust_semantics/classic_robustness.cc:31-54: compute_until", "src/robust_semantics/classic_robustness.cc:113-212: Predicate, Not, And, Or, Eventually, Always, Until", "src/robust_semantics/minmax.cc:20-181: compute_minmax_pair, compute_minmax_seq"]}
{"id": "C135", "title": "Two recordings of the same signals give nearly the same robustness", "statement": "If the signals of two traces differ by at most eps at every real time, although they may be sampled at different timestamps, then the computed robustness signals differ by at most eps + d*(s+s')/4 at every real time, where s and s' bound the steps between consecutive samples of the two traces and d is the number of C131 for the formula. In particular, resampling equal signals changes the values by at most d*(s+s')/4. Signals that are better for a formula without Until do not lower its values by more than d*(s+s')/4. In binary64 and without And and Or, 2*(n+1)*2^-48*(V+C) is added.", "quantifier": "all formulas without Boolean constants (in binary64 also without And and Or), all pairs of traces in which the signals used have the same first and last timestamps, all times", "why_tests_cant": "That resampling changes nothing (C70) and that better signals help (C76) are false, so a test can only compare with a tolerance; that the tolerance suffices for all formulas, sampling times and values is not testable.", "anchors": ["src/robust_semantics/classic_robustness.cc:31-54: compute_until", "src/robust_semantics/classic_robustness.cc:113-212: Predicate, Not, And, Or, Eventually, Always, Until", "src/robust_semantics/minmax.cc:20-181: compute_minmax_pair, compute_minmax_seq", "src/core/signal.cc:115-173: synchronize"]}
{"id": "C136", "title": "The loop helpers enumerate and reversed", "statement": "A range-based for over enumerate(r) behaves for every range r and every loop body, also one that throws or does not end, like the loop over r with a counter of type size_t that starts at zero. Over enumerate(v) of a vector v the body sees the pairs (k, v[k]) in order, over reversed(v) the elements from the last to the first, and over enumerate of a reversed vector the counter still goes upwards, and assigning to the element changes the vector at that index; no iterator outside of the vector is dereferenced or moved.", "quantifier": "all ranges, all vectors (with at most 2^64 elements where the index is concerned), all loop bodies and their state", "why_tests_cant": "The helpers are templates over arbitrary ranges and are used with arbitrary loop bodies; the library does not use or test them.", "anchors": ["src/include/signal_tl/internal/utils.hpp:22-56: enumerate", "src/include/signal_tl/internal/utils.hpp:58-77: reversed"]}
{"id": "C137", "title": "Verdicts on the beginning of a trace are final", "statement": "For a safety formula (Always only under an even number of negations, Eventually only under an odd number, no Until), with [0, inf) in place of its intervals: if the value computed at a time is below -(eps + d*s/4), no continuation satisfies the formula at that time, where a continuation is any family of real signals up to any later end that differ from the recorded ones by at most eps so far, s bounds the steps between consecutive samples and d counts the nested temporal operators. The robustness of every continuation is at most the computed value plus eps + d*s/4, and the values computed for a longer trace are at most those of the shorter plus eps + d*(s+s')/4. For co-safety formulas the same the other way round. In binary64, without And and Or, (n+1)*2^-48*(V+C) is added.", "quantifier": "all safety and co-safety formulas with the intervals the constructors can make, all traces whose signals have the same first and last timestamps, all continuations by arbitrary real functions, all times up to the end of the trace", "why_tests_cant": "The statement is about all futures of a signal, which need not even be piecewise linear; a test continues a trace in a few ways.", "anchors": ["src/robust_semantics/classic_robustness.cc:113-197: Predicate, Not, And, Or, Eventually, Always", "src/robust_semantics/minmax.cc:20-181: compute_minmax_pair, compute_minmax_seq"]}
{"id": "C138", "title": "Monitoring a physical system with doubles", "statement": "Real signals, Lipschitz with constant L up to the end T of the record, are measured with errors of at most eta at times at most h apart and recorded as doubles. Let B = (d/4+1/2)*L*h + (d/2+1)*eta + (n+1)*2^-48*(V+C), with the numbers of C132. A computed value above B (below -B) means that the real signals satisfy (violate) the translated formula of C131 at that time, and every time at which their robustness is beyond 2B is recognised in this way. For safety formulas a value below -B means a violation up to every later time, however the signals go on after T, and a value above B that the formula with its intervals was satisfied so far; for co-safety formulas the other way round. With And and Or nested below Always and Eventually over [0, inf), the samples of the result are within kappa + (k+1)*2^-46*V*(1+H/d) (numbers of C120) of the robustness of all real signals that stay within kappa of the recorded ones, with the same verdicts.", "quantifier": "all formulas without Boolean constants, And and Or (or with And and Or as in C120), all Lipschitz signals and all their continuations, all records with the same first and last timestamps, all real times of the record (with And and Or: all samples of the result)", "why_tests_cant": "The statement compares a computation in doubles with real signals in continuous time and with all their futures.", "anchors": ["src/robust_semantics/classic_robustness.cc:31-54: compute_until", "src/robust_semantics/classic_robustness.cc:113-212: Predicate, Not, Eventually, Always, Until", "src/robust_semantics/minmax.cc:91-105: compute_minmax_seq"]}
{"id": "C139", "title": "From the text to verdicts at all times, for nested formulas", "statement": "If from_string accepts a text, then for every assertion without Until and constants, with Not, And, Or, Implies, Iff, Xor, Always and Eventually nested in any way, the computed robustness differs at every real time of the trace from the robustness of what is written in the text by at most d*s/4, where d is the nesting of Always and Eventually in the text and s the greatest step of a signal between neighbouring samples; beyond this bound the sign decides whether what is written holds. For signals in continuous time with Lipschitz constant L, sampled at times at most h apart, the bound is (d/4+1/2)*L*h. For an assertion that is a safety formula as it is written, a value below -(eps+d*s/4) means that what is written is false of all signals that agree with the trace up to eps so far and go on in any way; for co-safety a value above eps+d*s/4 that it is true of all of them.", "quantifier": "all texts in the grammar of the parser (predicates with the name on the left), all layouts and comments, all traces with exact real arithmetic whose used signals cover the same interval, all real times, all continuations", "why_tests_cant": "Composes the parser, the constructors and the monitor over all texts and traces against a dense-time semantics of the written syntax, and quantifies over all futures of the signals.", "anchors": ["src/parser/parser.cc: from_string", "src/parser/actions.hpp: action", "src/core/ast.cc: And, Or, Implies, Iff, Xor", "src/robust_semantics/classic_robustness.cc:113-197: Predicate, Not, And, Or, Eventually, Always", "src/robust_semantics/minmax.cc:20-181: compute_minmax_pair, compute_minmax_seq"]}
{"id": "C140", "title": "What is computed for a text with Until", "statement": "Translate a text by replacing every (until a b) in its definitions and assertions by (or c (until a c) (always a)), where c is (or b (always (not b))). If from_string accepts the text, then for every assertion without constants the computed robustness differs at every real time of the trace from the robustness of the translated text by at most d*s/4, where d is the nesting of the temporal operators in the text, Until counting four, and s the greatest step of a signal between neighbouring samples; beyond this bound the sign decides whether the translated text holds. For signals in continuous time with Lipschitz constant L, sampled at times at most h apart, the bound is (d/4+1/2)*L*h. The translated text is not what is written: for (always (until p (not p))) with p the definition (< x 1.5) and x = 1 all the time, the computed robustness is positive at every time, however fine the sampling, and what is written is false at every time.", "quantifier": "all texts in the grammar of the parser (predicates with the name on the left), all layouts and comments, all traces with exact real arithmetic whose used signals cover the same interval, all real times", "why_tests_cant": "Composes the parser, the constructors and the monitor over all texts and traces against a dense-time semantics of the written syntax.", "anchors": ["src/parser/parser.cc: from_string", "src/parser/actions.hpp: action", "src/core/ast.cc: And, Or, Implies, Iff, Xor", "src/robust_semantics/classic_robustness.cc:31-54: compute_until", "src/robust_semantics/classic_robustness.cc:113-212: Predicate, Not, And, Or, Eventually, Always, Until"]}
