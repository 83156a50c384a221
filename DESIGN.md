# Formal model of SoDaUtils: design

Source: `/repo` (kb1vc/SoDaUtils, C++), read as text.  Proof assistant: Lean 4.33.0.

## Layout

* `lean/Verif/Model/*.lean` – executable model, function by function; each definition cites file and lines.
* `lean/Verif/Spec/*.lean` – small specifications, written without the model's helpers.
* `lean/Verif/Proof/*.lean` – helper lemmas.
* `lean/Verif/Props/*.lean` – the property theorems (`C01_…`, `C02_…`), each with an `example` showing that a
  non-trivial case meets its hypotheses.
* `MANIFEST.json` – property → theorems → status.  `seeded/LOG.jsonl` – mutation experiments.

## Conventions

* `std::string` is `List Char`.  C++ `char` is a byte; every theorem quantifies over all `Char`, so over all bytes in
  particular.  `isdigit`/`isspace`/`toupper` are the C-locale ASCII functions; calling them with a negative `char`
  (bytes ≥ 128) is formally undefined in C and is treated here as "not a digit / not a space", which is what glibc does.
* Undefined behaviour is a distinct outcome (`Res.ub`), as are exceptions (`Res.throw`), and non-termination where it
  matters (fuel-free relational statement "no number of iterations leaves the loop").
* Unsigned 32-bit wrap-around is modelled where it can be observed (placeholder numbers, argument counter, barrier
  generation counter, widths passed to `setw(int)`), otherwise integers are unbounded.
* Memory exhaustion (`std::bad_alloc`) is modelled for the methods of the mailbox (C107), of format objects (C114) for registering and parsing options (C115, C116) and for reading property trees (C121, C122) only; locale changes in C129 and C130 only; stream
  write errors in C132 only.

## What is modelled for each property and how it is proved

| ids | model | proof idea |
|---|---|---|
| C01–C04 | `squashSpaces`, `split`, `splitVec` loop by loop with positions, UB on `front()/back()` of an empty string | loop invariants relating position-based loops to list recursion; spec = `words`/`fields` by structural recursion |
| C05–C10 | `initialScan` as the 3-state automaton, `insertField`, `str`, `reset` | automaton = independent recursive template grammar; invariant over operation lists |
| C11–C18 | `addI`, `addU`, `toHex`, `toOct`, `addS`, `addC`, `addB` with a model of `setw/setfill` and integer insertion | induction over digits / groups; read-back by a Horner evaluator in the spec |
| C19–C24, C65–C67 | `addF`, `log1k`, `getIntPartWidth`, `fractionate`, `pad` over rationals with an arbitrary rounding function after every arithmetic operation; instances: exact arithmetic, IEEE binary64; the counter `ret` of `log1k` is unbounded (C20_exponent_binary64: it stays below 1200 in calls that return) | loop invariants; termination by a multiplicative measure; counterexamples by kernel evaluation |
| C98–C101 | the same, with the static `separator` | full text of engineering notation from the loop specifications; counting its characters; `C99`/`C101` exactly by the rounding of the stream and of `log1k` |
| C25–C39 | `Options`: registration maps, `isSwitch`, `parse` (3 overloads), `setVal` of the 3 option kinds, `buildTokenList`, `parseKeyValue`, `getPosArg`, `printHelp`; the value type, converter and test function of an option are parameters; `istream >> int` and the `bool` reader are modelled concretely | parser loop refined to a recursive-descent grammar; corollaries by induction over lines |
| C103 | any number of `Options` objects that share option objects through copied `shared_ptr`s: construction, implicit copy, assignment and destruction, all public calls | simulation of each object by a single object of C25–C39 up to the numbering of the option objects; frame of each call; for presence the times of the registrations (`story`, `Given`) |
| C40–C47, C56 | `MailBox`: map of queues; every public method both as one function and as a sequence of steps executed while `mtx` is held (`Monitor`: any number of threads, arbitrary scheduler, lock/act/unlock/return steps); world with several mailboxes, construction and destruction, subscription objects | every execution is equivalent to the sequence of its calls in the order in which they released the mutex (`Proof/Monitor`); then invariants by induction over histories |
| C105 | any number of mailboxes at addresses, constructed and destroyed; subscriptions as address and id | each mailbox's state is that of its own history (induction over the program); the address decides |
| C48–C51, C57, C58 | `Barrier::wait` statement by statement as a transition system: unlocked generation read, mutex, condition variable with `notify_all`, spurious wake-ups, deadlines at any moment; all counters modulo 2^32 | inductive invariant with ghost generation number; bounded work measure for progress; concrete schedules for the refutations |
| C91 | the models of C48, C64, C80, C87 and C90 with deadlines; times as numbers attached to the events | an execution in which nobody is missing at a deadline is, step by step, one in which the same wake-ups are spurious |
| C83 | the barrier model of C48 with any number of threads, spurious wake-ups and deadlines | invariant: who sleeps waits for the current generation or somebody is at `notify_all`; work measure |
| C80–C82 | traces of the barrier and mailbox models with the mutex operations; happens-before of the C++ memory model (program order, release before later acquire, transitivity); table of member accesses per statement | steps made while owning the mutex are totally ordered by happens-before; first change of a predicate along a trace; the invariants of C48 and C41 |
| C64 | `Session`: any interleaving of the mailbox and barrier models, threads inside at most one call, `subscribe` before `wait` before `put` | invariant relating pending calls to barrier events; C48 and C40 |
| C87 | the thread function of test/MailBoxTest.cxx between its calls, on top of the steps of `Session` | invariant: per-sender positions of every receiver's stream are prefixes of the rounds sent so far; minimal-trial argument and a work measure for progress |
| C90 | `main`, `testBarrier` and the thread function of test/BarrierTest.cxx on top of the barrier model of C48, and its options on top of C25 | invariant relating each thread's trial to its calls and returns; work measure with one deadline per call; the sleeping thread with the fewest calls for progress |
| C95 | what BarrierTest and MailBoxTest print to `std::cerr` and return, their options, and the properties of their tests in test/CMakeLists.txt | invariant: what a thread that has caught an exception has written and has still to write; completion of executions by the bound of C90 |
| C96, C102 | the barrier model of C48 with a reference count: pointers copied from thread to thread and dropped, the barrier destroyed with the last | the count is the number of pointers not yet dropped; which states allow a thread to touch the barrier again |
| C97 | programs whose threads execute fixed sequences of statements, calls of `wait`, thread creations and joins; examples/BarrierExample.cxx as such a program | invariant: what each thread has executed has as many `wait`s as it has returned from; C48 for the phases, C83 and minimal-round argument for progress, C91 for deadlines |
| C107 | every call of a mailbox with the number of the request for memory that fails; the steps up to there, then `std::bad_alloc` or the destructors | the history as it looks to one subscriber is a history without failures; ids in the map = subscribers in order |
| C106 | the `main`s of the other test programs with the answers of the library as parameters, `std::map` from an initializer list | loops by induction, the maps by evaluation |
| C108, C109 | the `main`s of examples/OptionsExample.cxx, examples/PropertyTreeYamlExample.cxx and test/PropertyTreeYAML_Test.cxx with their outputs, for every command line and file | the settings of the program as a fold over the items of the line, related to the options object item by item |
| C110 | the default arguments of all methods with some | evaluation of the calls |
| C111 | `Options::parse` with test functions that read and write the variables and throw anything (they do not use the `Options` object; C128 has those that do) | a relation that runs the line item by item from a state of the variables |
| C112 | messages as objects: the `shared_ptr` reference counts of `MailBox.hxx` 306-422 (copies into queues, parameters, the `ret` of `get`, the queue copies of `minReadyCount`), `~MailBox`; programs construct messages, copy, move and destroy pointers in any thread at any time | there is a pointer to a message / it has been destroyed / which calls discard |
| C113 | the barrier model of C48 with a clock: the argument of each call, the deadline computed at `wait_for` (src/Barrier.cxx:74; overflow is undefined behaviour), deadlines pass not before that time | last call / last entry before an event, entered in time, what was asked for |
| C114 | calls of a format object with the number of the request for memory that fails: an insertion stops between two placeholders, `reset` after any number of characters of the format string (which of them need memory is left open) | the template of C05; the text with the next value at the first `j` of its placeholders |
| C115 | registrations with the request for memory that fails (the object, its long name, the entry of the long name, the entry of the letter); calls tried again | two objects give the same answers (C103), presence, variables, messages |
| C116 | the loop of `parse`, one token at a time, memory runs out at a token before its use, after the assignment of the value, or after the option before was marked; the overloads for strings and `argv`, where memory also runs out while the tokens are built | the results of `parse` on the tokens before, with and without the token |
| C117 | as C20 (`fractionate`: `10 * frac_part` and the conversion to `int` are checked) | value with half a unit added, written `m * 1000^j`; floor and fraction of `m` |
| C118 | `FThr.Stmt`, `FThr.eval`, `FThr.Step` (`Verif/Model/FormatThreads.lean`): threads, two steps per statement (everything read and computed; everything written), any interleaving; memory is the `Format` objects and `Format::separator` | what each statement reads and writes, conflicts of programs, data races of executions, the steps of one thread, `Finished` |
| C119 | as C49 (`Bar.step`) | infinite executions, strong fairness of each thread's next statement, deadlines that pass; calls, returns and ends counted in what can be seen |
| C120 | as C40 (`Monitor.Step` with the bodies of `Mail.body`) | infinite executions, strong fairness of the steps inside of calls; calls and returns of threads, messages sent and received |
| C121, C122 | `PropAlloc`: `fillRecurse` with the nodes and pointers of C92 and a number of requests for memory that are granted; one request at each place where the nodes differ | the tree after `std::bad_alloc` is the one of C62 for the beginning (`Initial`) of the document |
| C123 | the statements of C92 executed by several threads in any order, one statement at a time | a thread alone, as in C92; which nodes a statement depends on and changes. `new` from several threads and the internals of yaml-cpp are taken to be safe, as the language and that library say |
| C124 | the models of C52–C63 and C92–C94 | `Before e a b`: `a` is what stands in document `b` before its first mistake `e`; the number of nodes for each statement |
| C125 | `Graph`: documents whose nodes are named and may be shared or circular; `fillRecurse` with a bound on nested calls | a chain of more calls than nodes has a node twice; who is called after what, in terms of the document (`Inside`) |
| C126 | the objects of C103 used by several threads in any order, one call at a time | a thread alone, as in C103; which option objects and variables a call depends on and changes. Within a call nothing is interleaved: what a call touches is proved to be apart from what the calls of other threads touch, so the order of its steps cannot matter. Messages of different threads on `std::cerr` may be mixed character by character; only what each call writes is stated |
| C127 | `MailBoxGuard`: methods of several mailboxes with the `lock_guard`s as statements, a stack of calls per thread, destructors of messages that call mailboxes where the last pointer is destroyed | which mutexes a thread holds is read off its stack; the mutexes are taken in the order of the mailboxes; the part of an execution that one mailbox sees is an execution of `Monitor` with the critical sections of C40–C47 |
| C128 | `OptionsNested`: `Options::parse` with test functions that use the `Options` object that is parsing: `isPresent`, `getPosArgs`, the variables, nested calls of `parse` (for lists of tokens) whose result decides what the test function goes on with. They do not register options. The depth of nested calls is a parameter of the model; a result does not depend on it (C128_depth), and no result means that the calls are nested deeper (a stack overflow if deeper than any number) | a relation that runs the line item by item, the lines parsed by test functions included |
| C129, C130 | `Locale`: `Format::addI/addU/addF/str` and `Options::setValBase<T>` in a program that has set another global locale (`std::locale::global`); a locale is a separator, a decimal point and a list of group sizes (`numpunct<char>`). What libstdc++ does with it (`__add_grouping`, `num_put`, `num_get`, `__verify_grouping`) is part of the trusted description of the standard library. Left out: other facets (`ctype`, `boolalpha` names), the locale of the C library and of the YAML library, locales imbued into the caller's streams | where separators stand, by sums of group sizes counted from the end of the number |
| C131 | `MailBoxPtr`: `std::shared_ptr`s with their counts and `Subscription`s in the variables of several threads; calls in two steps (enter, return); to enter a destroyed mailbox or to destroy one that a thread is inside of is undefined; addresses are chosen by any allocator that gives free ones | the count is the number of variables that point to the mailbox; an invariant that ties each thread to a look at the thread alone; for the converse the other threads run to their end first |
| C132 | `OStream`: `Options::printHelp(os)`, the messages of `Options::parse` on `std::cerr`, `PropertyTree::dump(os)`, `os << format`, as sequences of insertions of strings into a stream with `width`, `fill`, adjustment, `badbit`, `failbit`, `exceptions()` and a device that takes only so many characters. What libstdc++ does for one insertion (`__ostream_insert`, sentry) is part of the trusted description of the standard library. Left out: flushing, tied streams, `eofbit`, `internal` adjustment (the same as right for strings), devices that throw; a help text whose formatting throws (`BadFormat`; impossible for names shorter than 2^31) is taken to write nothing | what a field shows, how much of a text a device takes, what a text begins with; `C78_diagnostics` for the messages |
| C133 | `Monitor` and `MailBox`: the statements of the calls of one mailbox, interleaved in any way; the program sees calls and returns only | linearisability as defined by Herlihy and Wing, with a mailbox that maps ids to queues as the sequential object; forwards: the order of the releases of the mutex; backwards: an execution is made from the order, each call done when it or a later one of the order has to return. Several mailboxes (`Monitors`): a mutex for each; the histories are those of one mutex for all |
| C134 | `Monitors`: several mailboxes, a mutex each | the history of one mailbox is the history without the events of the others; forwards: the execution without the steps of the others; backwards: the executions of the mailboxes are put together as the history says, a thread being in at most one of them |
| C135 | `Monitors`: several mailboxes, a mutex each | happens-before with several mutexes: what each mutex orders (as in C82), transitively closed; the object of a lock step is that of the last call of its thread |
| C136 | `Bar.step` with `num_waiters` 0 and 1 | nothing new; for 0, no deadlines and fewer than 2^32 arrivals (then the counter would wrap to 0) |
| C137 | `Together`: several mailboxes (as in C135) and several barriers (as in C80, C81), a mutex each; a thread is in one call at a time | the steps at the mailboxes, and at each barrier, are executions of these alone; happens-before among them is happens-before in the program |
| C138 | `dumpWithin`, `lookWithin`: `dump` and `getPropRecursive` with a limit for nested calls (`Graph.fill` of C125 has one already); how many bytes of stack a call needs is not modelled | induction over the number of calls |
| C139 | none: the program of C137, its calls seen from outside | the mailboxes are linearisable (C133, C134), the barrier orders the calls (C137); then counting in the sequential history |
| C140 | none: the program of C137 | counts of calls; a thread that holds a mutex can go on; C49 for each barrier; a well-founded order of the work left (`Relation.CutExpand` on what the threads do in mailboxes) |
| C141 | none: the program of C137 | infinite executions, fairness for each thread (`Spec/TogetherFair`); a thread stays in its call until it proceeds, so fairness for threads gives fairness at each barrier (C119); for mailboxes: whoever holds a mutex leaves the call, so it is free again and again |
| C142 | none: the program of C137 | infinite executions as in C141; the order of the work left of C140; for starvation a periodic execution of two threads is given explicitly |
| C143 | none: `Format::addI/addU` (C11-C16) and `setValBase<T>` (C33, C72 ff.) | the text written by the one is the text read by the other, both in the "C" locale |
| C144 | none: `PropNode::get<T>` (C86) | the values of nodes are the scalars of the document as written (yaml-cpp's `as<std::string>`); how YAML writes numbers is in `Spec/YamlNumbers.lean` |
| C145 | `PropertyLocale`: `PropNode::get<T>` in a program that has set another global locale | the extraction of `Locale` (C130); which `>>` is used is that of C86 |
| C146 | `PropertyInto`: the variable given to `get<T>(v)`, also after a failure or an exception | what libstdc++'s `>>` assigns when it fails (0, the nearest number, nothing), as in the options model; "C" locale |
| C147 | `SmallInts`: property values and options of type `int8_t` and `uint8_t` | `>>` extracts a character; ASCII only |
| C88 | `badDiff`, `checkVal`, `doTest` and the loops of `runBigTest` (test/FormatTest.cxx) on top of `addF` and `istream >> double` | relative error of the three notations from the half-unit bounds, with one extra digit of room when the rounding is near a power of ten; rounding of the comparison by monotonicity |
| C68, C69 | `Format_ext`: the wrappers, objects with their `saved_ptr`, implicit copies, destruction | invariant "every object refers to itself" over programs without copies |
| C70, C71 | `MailBoxBase::convert`, `BadConversion`; classes and their derivation relation are parameters | case analysis |
| C72 | `roundToSigDigs` over signed rationals with an arbitrary rounding function | loop invariants counting roundings; exact arithmetic and binary64 |
| C73–C79, C89 | option values of type `double`, `char` and integers of any size (`istream >> T` of libstdc++), the text of the diagnostics | scanner = declarative number grammar; decimal-to-binary round trip from an error bound on nearest rounding |
| C84, C85 | option values of type `float` (`strtof`, binary32) | the proofs of C73 and C74 with mantissas of 24 bits |
| C86 | `PropNode::get<T>` for `bool`, `char`, `float`, `double` and integers of any size | the scanners of C73 |
| C52–C55, C59–C63 | `PropNode`, `getProp(Recursive)`, `get`, `getPathName`, `getKeys`, `getList`, `dump`, `readFile`, `fillRecurse` over an algebraic YAML document type, exception texts | mutual structural induction over documents; counterexamples |
| C104 | `readFile` of C52–C63, classes of its exceptions | C62 |
| C92–C94 | the same functions on a memory of nodes with child and parent pointers; programs with any number of tree objects (construction, copy, assignment, `readFile`, destruction) | relation between memory and trees with footprints (each node once), frame lemmas; refinement to the model of C52–C63 |

Properties the code violates are kept at full strength in `properties.jsonl`, refuted by a theorem with a concrete
witness, and accompanied by a `_partial` theorem for the largest set of cases we can prove.

## Check of the model against the repository's tests

`lean/Verif/Props/RepoTests.lean` runs the deterministic tests of `/repo/test` (FormatHexTest, FormatTest's fixed cases,
FormatNaN, SplitTest, OptionsTest, PropertyTreeYAML_Test; the random part of FormatTest is C88, MailBoxTest is C87, BarrierTest is C90) and the examples with known output against the model, by kernel evaluation.  The model
passes all of them.  Two comments in the repository are out of date: examples/Format_Test.cxx:103-113 announces an
exception for surplus arguments (there is none), and include/Format.hxx:136-137 shows Avogadro's number with other
precision and exponent sign.

## Trusted base

* Lean 4.33.0's kernel.  No `sorry`, `native_decide`, `bv_decide`, `implemented_by`, no own axioms.
* Axioms: at most `propext`, `Classical.choice`, `Quot.sound`; `AXIOMS.md` (generated by `tools/axioms.py`) lists them
  for every property theorem.
* The reading of the C++ source recorded in the comments of the model, and the descriptions of library behaviour below.

## What is modelled, what is trusted, what is left out

**Standard library, described by hand in the model (trusted).**  `setw`/`setfill`/`left`/`right`, insertion of integers
in base 8/10/16, `std::fixed`/`scientific`/default float notation (correctly rounded, ties to even, as glibc does),
`istream >>` integers, `bool`, `double`, `float`, `char` and `std::string`, `std::map` (sorted association list; that lookup, assignment and erasure behave as
a map is proved, not assumed); `modf` and `floor` are exact.  Lists, vectors and queues are Lean lists.

**Floating point.**  Every operation of `addF` is the exact rational operation followed by a rounding function, which is a
parameter; `binary64` instantiates it with IEEE round-to-nearest-even including subnormals and overflow.  A double is
a sign and a rational magnitude, so a negative zero keeps its sign in the stream notations; x87 extended precision and the
overflow of the `int` exponent counter in `log1k` are not modelled.  A `float` (option and property values only) is the double
of the same value; reading one rounds once, to 24 bits.

**Concurrency.**  Threads are interleaved statement by statement (sequential consistency).  For the mailbox the
models of C40–C47 build in that a call takes the mutex for its whole body; C127 proves that the methods, with the `lock_guard`s as
statements, behave like that.  For the
barrier one access, the read of `barrier_count` at src/Barrier.cxx:58, is outside; C57 and C80 show that it does not race
with exactly n threads and no timeouts, and exhibit one race with a surplus thread and one with a timeout (then C++ makes
no promise at all; the model continues with an atomic read, so C50 and C51 are about that reading).  The executions considered are sequentially consistent ones; C80 and C82 prove
that (under their hypotheses) these have no data race, so by the DRF guarantee of the C++ memory model, which is trusted, there are no
others.  Condition variables may wake spuriously and `notify_all` wakes everybody.  Time is modelled for
C113 only (a steady clock in nanoseconds; `wait_for` computes now + timeout in signed 64 bits, as libstdc++ does); elsewhere deadlines
may fire at any moment, and C113_forget shows that this covers the executions with a clock.  Fairness is assumed in C119, C120 and C141 only, as a hypothesis of the theorems (each thread is scheduled, and gets the mutex,
if it can go on again and again; C++ itself promises neither; C142 assumes less: something happens as long as somebody can proceed); elsewhere liveness (C42, C49) is stated as bounded progress of the
threads' own statements and absence of deadlock.

**yaml-cpp.**  Parsing is not modelled: a file is what `YAML::LoadFile` returns for it (a finite tree, `BadFile`, or
another exception).  Documents are trees, in C125 graphs (an alias stands for the node with the anchor, also an enclosing one, as yaml-cpp registers an anchor before it reads the node).  `IsMap()` etc. on the invalid nodes obtained by
iterating over a sequence as if it were a map throw `InvalidNode`.

**Left out.**  `std::bad_alloc` outside the methods of the mailbox, of format objects, registering and parsing of options, and reading of property trees, stream write errors outside C132, locales outside C129, C130 and C145;
`UtilsBase::getVersion`/`getGitID` (return build constants); `NoCopy` (a compile-time restriction);
`PropertyTreeYAML::writeFile` (empty stub).

## Where the code does not do what its documentation says

Each is proved of the model, with a concrete witness where the property is refuted.

| property | finding |
|---|---|
| C02 | `squashSpaces`/`split` of an empty or blank string: undefined behaviour (`front()`/`back()` of an empty string) |
| C12 | `addI(-123, 0, ',')` prints `-,123` |
| C17 | `addS` with width `INT_MIN`: signed overflow; strings of 2^32 characters: wrong padding |
| C20, C21 | `addF(20.0,'e',0,0)` prints ` 0 e+0 `, `addF(5.0,'e',0,0)` prints ` 10e+0 ` (twice the number); `addF(995.0,'e',0,2)` prints ` 1000e+0 ` |
| C22, C23 | `addF(…,'e')` is 0.6 units off for the subnormal 2^-1072 (d = 3), and it never returns for the magnitudes up to 2·2^-1074 and from a limit on that depends on d (1.79768813e308 for d = 6); `C23_eng_range_partial` gives the exact range for doubles |
| C31 | an option that ends the command line is silently not marked present |
| C32 | a line ending within a signed option leaves `waiting_for_signed` set: no switch is recognised any more |
| C33 | `addV<int>` cannot be given negative numbers |
| C36 | `getPosArg(numPosArgs())` reads out of bounds |
| C47 | `unsubscribe(id)` followed by dropping the `Subscription`: `std::terminate`; dropping it after the mailbox: dangling pointer |
| C105 | a subscription left over from a destroyed mailbox is accepted by another one constructed at the same address; destroying it ends somebody else's subscription |
| C50 | after a `Timeout` the other waiters return normally (in every execution, unless the barrier fills afterwards), and a later arrival, or the timed-out thread trying again, passes the barrier alone |
| C136 | a barrier for 0 threads is not open but closed for ever: the counter is tested only after it has been incremented, so every call waits for its deadline (a day, for timeout 0) |
| C51, C57 | a surplus thread may pass the barrier alone, and races with the generation counter |
| C52, C53 | `getProp` never descends: every existing path yields the root's own value, and `a:b` "exists" if `a` and `b` do |
| C56 | `SubscriptionMismatch` never names the other mailbox (no field in the format) |
| C86 | `get<bool>` reads `0` and `1` only: a YAML `true` or `false` is refused |
| C60 | `BadPropertyType` prints the literal `"2"` instead of the type; path names consist of values, not keys |
| C93 | a copy of a `PropertyTreeYAML` shares its nodes with the original: reading a file into one changes the other |
| C122 | a reading that failed with `std::bad_alloc` cannot simply be tried again: items already in the list of the root are there twice |
| C94 | `PropNode`s are never freed; re-reading an unchanged file makes all its nodes anew |
| C124 | a file with a mistake leaves the tree half read: the values before the mistake are in it, those behind are not, and the exception does not say where the mistake is |
| C125 | `readFile` of a document with an alias to an enclosing node never returns (in practice the stack overflows) |
| C138 | nothing limits the nesting: a document nested deep enough overflows the stack in `readFile`, and the tree in `dump` |
| C127 | a message that owns a `Subscription` of the mailbox it is in (or whose destructor calls that mailbox) makes `clear`, `unsubscribe` and the destruction of a subscription lock the mutex twice; two mailboxes whose messages call each other's mailboxes can deadlock; `subscribe` that runs out of memory in line 313 locks the mutex twice (here derived from the order of destruction, in C107 built in) |
| C68 | a copy of a class derived from `Format_ext` keeps the `saved_ptr` of the original: chained calls on the copy modify the original, or a destroyed object |
| C69 | `Format_ext::addU` truncates to 32 bits |
| C71 | `BadConversion` never names the type of the mailbox |
| C72 | `roundToSigDigs` never returns for zero and negative values |
| C76 | an `unsigned` option without default takes `-1` and stores 2^32 - 1 |
| C89 | a refused value overwrites the variable (with 0, the nearest number in range, or the refused value itself), so a default is lost although `parse` returns false |
| C103 | a copy of an `Options` object shares its option objects with the original: `isPresent` of the copy becomes true when the original parses a line |
| C104 | `readFile` lets exceptions of yaml-cpp out, although include/Exception.hxx:43-47 promises that `SoDa::Exception` catches all |
| C79 | `--name=value`, shown in the introduction of Options.hxx, is refused as an unknown option |
| C88 | the check of test/FormatTest.cxx never fails for negative numbers (the quotient is negative), and for no digits it accepts a relative error of 5 |
| C90, C95 | test/BarrierTest.cxx returns 0 even if the barrier times out, so that only the words in its output, for which CTest looks, show it; FastBarrierTest_should_timeout fails whenever the threads happen to arrive in time; `--maddur 0` and more than 9157 threads are undefined (empty distribution, overflow of the seed) |
| C106 | OptionsTestSimple cannot fail (exit code 0, no expression to look for); it compares no positional argument; FormatHexTest never checks `addU(0137,'o',4)` (equal keys in a `std::map`); SplitTest accepts an empty list from `split` |
| C102 | a `Barrier` that is not owned by `BarrierPtr`s may not be destroyed as soon as one's own `wait` has returned: others may still have to lock its mutex; the header does not mention it |
| C98 | include/Format.hxx:236-240 and 499-507 promise another radix character through `Format::separator`; the code uses it only for zero in notation 'e' |
| C99 | the default width does not "take up only as much room as the value requires": it is `significant_digits + 4`, so `addF(1.0)` is followed by two spaces; exponents of one digit in notation 'e' are always followed by one |
| C100 | in notation 'e' a field is always wider than asked for (the width of the sign, point or exponent is not counted), and zero ignores the width |
| C101 | in notation 'e' values rounded up to a power of ten have one digit more than asked for: 9.995 with three digits is " 10.00e+0 " |
| C107 | a `MailBox::subscribe` that runs out of memory at line 313 locks the mutex it holds already (the destructor of the `Subscription` calls `unsubscribe`); a `put` that runs out of memory has already reached some subscribers |
| C108 | `OptionsExample -i` is accepted, and its second part shows 0 instead of 3: the option still waits for its signed value when the next line is parsed |
| C111 | an exception of a test function of a signed option leaves `waiting_for_signed` set: if the program catches it and parses again, every token is a positional word |
| C128 | `waiting_for_signed` is shared by nested calls: if the test function of an option of a signed type parses a line (say, of a file that is named by a number), all tokens of it are positional words, switches included, and `parse` returns true; likewise a second line parsed by one test function if the first has ended within a signed option. Nothing stops a file that includes itself |
| C129 | No stream of the library asks for the "C" locale. If the program sets another one, numbers get its separators: `addI(-1234567)` gives "-1,234,567", `addU` in base 16 "0x1,234", with a separator of its own "1,_234"; an unfilled field is left in the text as "%1,000"; the digits after the point in notation 'e' get separators ("1.234.567e+0") |
| C130 | The values of options depend on the locale in the same way: "1,234" is 1234 or (in the "C" locale, without a message) 1; "3.14" is 3 where the decimal point is a comma and there is no grouping, and refused where the point separates groups. A file of options written by a program in one locale and read in another gives other numbers without a message. Even in one locale: what `addF` writes for 1.234567 in notation 'e' where the point separates groups (" 1.234.567e+0 ") is read as 1234567; the spaces that `addF` puts after a number make it unreadable where the separator is a space |
| C131 | `makeMailBox` "ensures that the mailbox will live even after it goes out of scope", without relying on good behaviour, only for those who hold a `MailBoxPtr`. A `Subscription` has a bare pointer (include/MailBox.hxx:293): a thread whose `MailBoxPtr` goes before its `Subscription` (for instance local variables declared in the other order) calls `unsubscribe` of a destroyed mailbox, unless another thread happens to hold a pointer for longer |
| C132 | `os << std::setw(n)` before `printHelp` or `dump` pads the first thing that the method happens to insert and nothing else: the first information string, the name of the first option, the line `<<<PROPLIST>>>`, and for a scalar the empty indentation (so that `n` fill characters precede the value even with `std::left`). `dump` of an empty container leaves the width for the next insertion of the program. `parse` lets `std::ios_base::failure` escape if the program has called `std::cerr.exceptions(...)` and the message cannot be written; the options before the error have then been set, as they have when it returns false. |
| C112 | `clear`, `unsubscribe` and the destruction of a subscription destroy messages while holding the mutex of the mailbox: a message whose destructor uses the mailbox (or waits for another thread that does) locks the mutex twice / deadlocks; `put` and `get` never destroy a message with the mutex held |
| C113 | `wait(unsigned long)` with 2^64 - 9223372036854 ms or more throws `Timeout` at once (the comment at Barrier.hxx 211-215 wonders about this); with smaller arguments whose deadline does not fit into 63 bits of nanoseconds (from 292 years minus the uptime) the deadline computation overflows: undefined |
| C114 | An insertion that runs out of memory leaves some of its placeholders filled (the next value of a caller who does not try again goes into the others); a `reset` that does loses the values, the rest of the format string and keeps the old argument number |
| C115 | A registration that runs out of memory has already overwritten the target variable; at its last step it leaves an option that is known by its long name but not by its letter |
| C116 | After a `parse` that ran out of memory, parsing again repeats positional arguments and vector elements; if it failed between the switch and the value of an option of a signed type, `waiting_for_signed` stays set and the next `parse` takes every token for a positional argument and returns `true`; `C116_again_exact`: in all other cases parsing again is right |
| C117 | `addF(v,'e',w,d)` from eleven digits on: the digits after the point are collected in an `int`, which overflows (undefined behaviour) for most values, e.g. `addF(1.5,'e',0,11)` |
| C97 | examples/BarrierExample.cxx:16 says ten minutes, the code waits one |
| C87, C95 | `testObjMessage` (test/MailBoxTest.cxx) ignores what the threads return; only the word "subscriber" in the output, for which CTest looks, shows a failed check; the message for an extra message has three fields and two arguments |
| C142 | `std::mutex` is not fair, so that a call on a mailbox that another thread uses again and again (for example a thread that polls `get`) may wait for ever. The header does not promise otherwise; programs with finitely many calls complete all the same. |
| C143 | What `Format` writes for an integer is not always what `Options` reads: a hexadecimal text is accepted as 0 (whatever the number), an octal one is taken for decimal, `addI(-42, 6, 0, '0')` writes "000-42", which is accepted as 0, and of a text with separators only the digits before the first one count; all without a message. `addU` puts separators into the padding too ("    ,   5"), and this is refused. In an English locale `addI(1234, 8, 0, '0')` writes "0001,234", which is refused in the same locale (C130_zeros_exact). |
| C144 | `get<T>` reads the octal and hexadecimal integers of YAML (`0o17`, `0x1F`) as 0 and `1.5e3` as the integer 1, all without an error; `.inf` and `.nan` are refused by `get<double>` |
| C145 | `PropNode::get<T>` uses the global locale, YAML does not: in a German locale `144.200` is read as 144200 and `3.14` is refused; in a French one `2.5e6` is read as 2 |
| C146 | a failing `get<T>(v)` overwrites the caller's default: with `port: auto`, `int port = 8080; get(port)` returns false and leaves 0; `get<int>(v, path)` on a tree never succeeds and sets `v` to 0 if the path exists |
| C147 | `get<uint8_t>` and `int8_t` options store the code of the first character: `5` is read as 53, `100` as 49, without an error |

The code was never compiled or run for this work.  That the model agrees with it rests on reading alone; none of the
findings above has been reproduced on the real library.

## Tools

`tools/manifest.py` writes `MANIFEST.json`, `tools/axioms.py` writes `AXIOMS.md`, `tools/seed.py` runs the mutation
experiments in a copy of the project and appends to `seeded/LOG.jsonl`.  `tools/mutate.py` makes small changes of the model
(operators, numbers, characters, branches) at random places and runs them in the same way.
