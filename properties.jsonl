{"id": "C01", "title": "squashSpaces normal form", "statement": "For every string that contains at least one character other than ' ', squashSpaces returns exactly the string's words (maximal runs of non-space characters), in order, joined by single spaces: no leading or trailing space, no two adjacent spaces, nothing else changed; squashing twice is the same as squashing once.", "quantifier": "all strings with a non-space character, any length and any arrangement of spaces", "why_tests_cant": "the claim is about every arrangement of spaces in strings of every length; a test fixes a few arrangements", "anchors": ["src/Split.cxx:squashSpaces"]}
{"id": "C02", "title": "squashSpaces/split have defined behaviour exactly on non-blank strings", "statement": "squashSpaces(s) and split(s, ...) have defined behaviour if and only if s contains a non-space character; on the empty string and on all-blank strings they read front()/back() of an empty std::string, which is undefined behaviour.", "quantifier": "all strings", "why_tests_cant": "undefined behaviour need not be visible to a test; the exact set of bad inputs is infinite", "anchors": ["src/Split.cxx:squashSpaces", "src/Split.cxx:split"]}
{"id": "C03", "title": "split returns exactly the delimited fields", "statement": "For every non-blank string, delimiter set and no_empty flag, split returns the fields of the space-squashed string between consecutive delimiter characters, left to right, without the delimiters, except that an empty field after the last delimiter is not reported; with no_empty no empty field is reported and every non-empty one is. splitVec returns the same sequence.", "quantifier": "all strings, all delimiter sets, both flag values", "why_tests_cant": "the number and position of delimiters is unbounded", "anchors": ["src/Split.cxx:split", "src/Split.cxx:splitVec"]}
{"id": "C04", "title": "split inverts join", "statement": "Joining any non-empty list of clean tokens (no delimiter in them, no blanks the squasher would touch, the last one non-empty) with a delimiter character and splitting the result on that delimiter gives the same list back.", "quantifier": "all token lists of any length, all delimiters", "why_tests_cant": "round-trip over an infinite domain", "anchors": ["src/Split.cxx:split"]}
{"id": "C05", "title": "The k-th value fills exactly the %k placeholders", "statement": "For every format string and every sequence of fewer than 2^32 add calls, str() is the format string with each placeholder %n replaced by the text of the n-th value added (counting from zero) when there is one and left as %n otherwise. All occurrences of a placeholder get the same text, order of placeholders is irrelevant, values are inserted verbatim (a '%1' inside an inserted value is never itself expanded), and values without a placeholder are ignored.", "quantifier": "all format strings, all finite sequences of values", "why_tests_cant": "format strings and argument lists are unbounded; interference between values and later placeholders shows only for particular value texts", "anchors": ["src/Format.cxx:initialScan", "src/Format.cxx:insertField", "src/Format.cxx:str"]}
{"id": "C06", "title": "Literal text and %% escapes survive", "statement": "Any text in which every '%' has been doubled is reproduced verbatim by str() (with one '%' for each pair), whatever values are added; a '%' followed by a character that is neither a digit nor '%' and a '%' at the end of the string are kept as they are.", "quantifier": "all texts", "why_tests_cant": "infinitely many texts; escapes next to placeholders are corner cases", "anchors": ["src/Format.cxx:initialScan"]}
{"id": "C07", "title": "Placeholder round-trip", "statement": "A format string composed by writing literal pieces (with '%' doubled) and placeholders %n, n < 2^32, in any order, is understood as exactly that sequence of pieces, provided no literal piece that directly follows a placeholder starts with a digit.", "quantifier": "all sequences of literal and placeholder pieces", "why_tests_cant": "unbounded composition of pieces", "anchors": ["src/Format.cxx:initialScan"]}
{"id": "C08", "title": "Placeholder numbers wrap at 2^32", "statement": "The number of a placeholder is the decimal value of its whole digit run taken modulo 2^32, so leading zeros are ignored and %4294967296 denotes the same placeholder as %0.", "quantifier": "all digit runs of any length", "why_tests_cant": "overflow of the unsigned accumulator needs specific huge numbers", "anchors": ["src/Format.cxx:initialScan"]}
{"id": "C09", "title": "reset makes a Format as good as new", "statement": "After reset(), whatever was added before, a Format object behaves exactly like a newly constructed one with the same format string: every later sequence of operations produces the same strings and the same exceptions.", "quantifier": "all format strings, all histories before and after the reset", "why_tests_cant": "a history property", "anchors": ["src/Format.cxx:reset"]}
{"id": "C10", "title": "str(true) throws exactly when a placeholder is unfilled", "statement": "str(true) throws BadFormat if and only if the format string contains a placeholder %n with n not smaller than the number of values added since construction or the last reset; str(false) never throws; neither changes the object.", "quantifier": "all format strings and histories", "why_tests_cant": "quantifies over all histories", "anchors": ["src/Format.cxx:str"]}
{"id": "C11", "title": "addI without separator prints the value right-justified", "statement": "addI(v,w,0,fill) inserts the decimal text of v (with '-' for negative values and no superfluous zeros), preceded by just enough fill characters (space by default) to reach width w; a value wider than w is never truncated; reading the digits back gives v.", "quantifier": "all 32-bit v, widths below 2^31, fill characters", "why_tests_cant": "4 billion values times all widths", "anchors": ["src/Format.cxx:addI"]}
{"id": "C12", "title": "addI with a separator groups digits by three", "statement": "For every v >= 0 and separator character the inserted text is the decimal digits of v with a separator between groups of three digits counted from the right, never at either end, then padded to the width; for negative values the same holds for the digits after the '-' sign.", "quantifier": "all ints, all separators, widths and fills", "why_tests_cant": "all magnitudes, and the sign is the corner case that breaks", "anchors": ["src/Format.cxx:addI"]}
{"id": "C13", "title": "addU hex is 0x plus at least w digits and reads back", "statement": "For formats x, X, h, H addU inserts '0x' followed by the hexadecimal digits of v, zero-extended to at least w digits and never truncated; reading it back as hexadecimal gives v for every v; X and H use only upper-case digits, x and h only lower-case ones.", "quantifier": "all 64-bit v and widths", "why_tests_cant": "2^64 values", "anchors": ["src/Format.cxx:addU", "src/Format.cxx:toHex"]}
{"id": "C14", "title": "addU octal starts with 0 and reads back", "statement": "For formats o and O addU inserts an octal numeral that starts with '0', has at least w characters, is zero-extended on the left, and reads back as v for every v.", "quantifier": "all 64-bit v and widths", "why_tests_cant": "2^64 values", "anchors": ["src/Format.cxx:addU", "src/Format.cxx:toOct"]}
{"id": "C15", "title": "addU decimal prints the value right-justified; unknown formats are decimal", "statement": "For format d, D and every character that is not one of x X h H o O, addU without separator inserts the decimal digits of v preceded by spaces up to width w, and reads back as v.", "quantifier": "all 64-bit v, widths, format characters", "why_tests_cant": "2^64 values", "anchors": ["src/Format.cxx:addU"]}
{"id": "C16", "title": "addU separators only group, never change, the digits", "statement": "With a separator, group size g >= 1 and any format, addU inserts the unseparated text (including any padding) with one separator between groups of g characters counted from the right; the '0x' or octal '0' prefix is not counted as something to separate; deleting the separators restores the unseparated text.", "quantifier": "all values, formats, widths, group sizes, separators", "why_tests_cant": "unbounded combination of lengths and group sizes", "anchors": ["src/Format.cxx:addU"]}
{"id": "C17", "title": "addS pads to the width on the documented side and never truncates", "statement": "addS(s,w) inserts s unchanged if |w| <= length; otherwise s preceded (w > 0) or followed (w < 0) by exactly |w| - length spaces.", "quantifier": "all strings, all int widths", "why_tests_cant": "infinitely many strings and widths, including the extreme negative width", "anchors": ["src/Format.cxx:addS"]}
{"id": "C18", "title": "addC and addB insert exactly one character", "statement": "addC(c) inserts exactly c, addB(b) inserts T or F; neither is affected by or affects neighbouring fields.", "quantifier": "all characters, both booleans, in any position of any history", "why_tests_cant": "context is an arbitrary history", "anchors": ["src/Format.cxx:addC", "src/Format.cxx:addB"]}
{"id": "C19", "title": "addF never hangs on NaN or infinities", "statement": "For every format character, width and digit count, addF of NaN inserts 'nan' and of +-infinity inserts 'inf' padded with spaces on the right to the width (significant_digits + 4, in unsigned int arithmetic, when the width is 0).", "quantifier": "all formats, widths and digit counts", "why_tests_cant": "all widths and formats", "anchors": ["src/Format.cxx:addF", "src/Format.cxx:pad"]}
{"id": "C20", "title": "Engineering notation: the exponent is always a multiple of three", "statement": "Whenever addF(v,'e',w,d) completes for v != 0, the text it inserts has the form '-' or space, integer digits, optional '.' and fraction digits, 'e', sign, exponent digits, trailing spaces; it carries the sign of v and the printed exponent is a multiple of 3. For v = 0 it inserts 0, the separator, zeros and e0.", "quantifier": "all finite doubles, all widths and digit counts, whatever the rounding of the intermediate arithmetic", "why_tests_cant": "2^64 doubles", "anchors": ["src/Format.cxx:addF", "src/Format.cxx:log1k"]}
{"id": "C21", "title": "Engineering notation: integer part between 1 and 999", "statement": "For every non-zero finite v and d >= 1 the printed integer part of addF(v,'e',w,d) lies between 1 and 999.", "quantifier": "all non-zero finite doubles, all d >= 1", "why_tests_cant": "values that round up across a power of 1000 are a measure-zero set tests miss", "anchors": ["src/Format.cxx:log1k", "include/Format.hxx:addF"]}
{"id": "C22", "title": "Engineering notation: the printed number is v rounded to d significant digits", "statement": "The number printed by addF(v,'e',w,d), d >= 1, differs from v by at most half a unit in the d-th significant digit of v.", "quantifier": "all non-zero finite values, all d >= 1", "why_tests_cant": "accuracy over the whole range", "anchors": ["src/Format.cxx:log1k", "src/Format.cxx:fractionate"]}
{"id": "C23", "title": "Engineering notation terminates", "statement": "addF(v,'e',w,d) returns for every finite double v.", "quantifier": "all finite doubles including subnormals", "why_tests_cant": "non-termination on individual subnormals", "anchors": ["src/Format.cxx:log1k"]}
{"id": "C24", "title": "Fixed notation is the correctly rounded decimal", "statement": "addF(v,'f',w,d) inserts the decimal expansion of v with exactly d fraction digits whose value is within half a unit of the last place of v, with '-' for negative v, left-justified and space padded to w (d+4 when w = 0).", "quantifier": "all finite doubles; all widths and digit counts that fit in an int (with the four extra columns)", "why_tests_cant": "accuracy over the whole range", "anchors": ["src/Format.cxx:addF"]}
{"id": "C25", "title": "A well-formed command line does what it says", "statement": "For every set of registered options and every command line made of positional words, presence switches, and option/value pairs (long or short spelling, values acceptable to the option, value not mistaken for a switch), in any order and any number, parse returns true and leaves exactly: each scalar target holding the last value given for it, each vector target extended by its values in order, each presence target true if its switch appeared, the positional list extended by the positional words in order.", "quantifier": "all registered option sets, all well-formed command lines of any length", "why_tests_cant": "unbounded command lines, every interleaving of items", "anchors": ["src/Options.cxx:parse", "include/Options.hxx:Opt::setVal", "include/Options.hxx:OptVec::setVal", "include/Options.hxx:OptPresent"]}
{"id": "C26", "title": "isPresent is true exactly for options that appeared with a value or as presence switches", "statement": "After a successful parse of a well-formed command line, isPresent(long name) and isPresent(short name) are true for an option if and only if it was present before or appears on the line, under either spelling.", "quantifier": "all option sets and well-formed command lines", "why_tests_cant": "history property over all lines", "anchors": ["src/Options.cxx:isPresent", "src/Options.cxx:parse"]}
{"id": "C27", "title": "Targets of options that are not mentioned keep their values", "statement": "parse changes no target and no presence flag of an option none of whose names occurs as a switch on the line, whatever the outcome of the parse.", "quantifier": "all token lists, well-formed or not", "why_tests_cant": "frame property over all inputs", "anchors": ["src/Options.cxx:parse"]}
{"id": "C28", "title": "An unknown switch makes parse fail", "statement": "If the parser reaches a switch whose name is not registered (and is not help), parse returns false, everything before the switch has been processed and nothing after it is.", "quantifier": "all prefixes and suffixes around the unknown switch", "why_tests_cant": "all contexts", "anchors": ["src/Options.cxx:parse", "src/Options.cxx:findOpt"]}
{"id": "C29", "title": "A rejected value makes parse fail", "statement": "If the value given to an option cannot be converted or is refused by the option's test function, parse returns false and nothing after it is processed; a vector target is not extended by the rejected value.", "quantifier": "all contexts, all converters and test functions", "why_tests_cant": "all contexts and value spaces", "anchors": ["src/Options.cxx:parse", "include/Options.hxx:setVal"]}
{"id": "C30", "title": "Help stops the parse", "statement": "If the parser reaches -h... or --help as a switch, it prints help and returns false without processing what follows, even if an option named h or help is registered.", "quantifier": "all contexts", "why_tests_cant": "all contexts", "anchors": ["src/Options.cxx:parse"]}
{"id": "C31", "title": "A switch left without a value at the end of the line counts as present", "statement": "If the last token is a switch for a registered option that takes a value and has a default, parse returns true, the target keeps its value and isPresent reports true.", "quantifier": "all option sets and line prefixes", "why_tests_cant": "end-of-input corner case in every context", "anchors": ["src/Options.cxx:parse"]}
{"id": "C32", "title": "Parsing again with the same Options object behaves like the first time", "statement": "The way a token list is classified into options, values and positionals does not depend on what was parsed before with the same object; only targets, presence flags and positionals accumulate.", "quantifier": "all pairs of token lists", "why_tests_cant": "history property", "anchors": ["src/Options.cxx:isSwitch", "src/Options.cxx:parse"]}
{"id": "C33", "title": "Negative numbers are accepted as values", "statement": "For every option of a signed type (scalar or vector), the line '--name -N' stores -N.", "quantifier": "all signed option types, all negative values", "why_tests_cant": "depends on the combination of option kind and value text", "anchors": ["src/Options.cxx:isSwitch", "src/Options.cxx:parse"]}
{"id": "C34", "title": "Integer option values read back what was written", "statement": "For every 32-bit integer n, an int option given the decimal text of n stores n. It accepts exactly the texts that begin, after optional white space, with an optional sign and decimal digits denoting a 32-bit integer (what follows the digits is ignored); every other text is rejected.", "quantifier": "all ints, all texts", "why_tests_cant": "2^32 values, infinitely many texts", "anchors": ["include/Options.hxx:setValBase"]}
{"id": "C35", "title": "Boolean option values", "statement": "A bool option that is given a value accepts exactly texts beginning with T/t (true), F/f (false) or (after white space) a 32-bit decimal integer (true iff non-zero) and rejects every other text.", "quantifier": "all texts", "why_tests_cant": "infinitely many texts", "anchors": ["include/Options.hxx:setValBase(bool&)"]}
{"id": "C36", "title": "getPosArg returns the idx-th positional or the empty string", "statement": "getPosArg(i) returns the i-th positional argument when 0 <= i < numPosArgs() and the empty string for every other i.", "quantifier": "all ints i, all positional lists", "why_tests_cant": "boundary index", "anchors": ["src/Options.cxx:getPosArg"]}
{"id": "C37", "title": "String command lines tokenize at blanks outside quotes", "statement": "parse(string) sees the tokens obtained by splitting at white space outside double quotes; writing any list of quote-free tokens as a string (quoting each) and parsing it is the same as parsing the list.", "quantifier": "all token lists", "why_tests_cant": "infinitely many strings", "anchors": ["src/Options.cxx:buildTokenList"]}
{"id": "C38", "title": "Key=value lists are equivalent to long options", "statement": "parseKeyValue(\"k1=v1,...,kn=vn\") with clean keys and values behaves exactly like parse of --k1 v1 ... --kn vn.", "quantifier": "all lists of key/value pairs", "why_tests_cant": "unbounded lists", "anchors": ["src/Options.cxx:parseKeyValue"]}
{"id": "C39", "title": "Long and short names denote the same option; the last registration wins", "statement": "After any sequence of registrations, each long name and each short name denotes the option most recently registered under it, and help prints the information lines and then one line for each long name, in ascending order, with the names padded to 20 columns (names shorter than 2^31 characters).", "quantifier": "all registration sequences", "why_tests_cant": "history property", "anchors": ["src/Options.cxx:registerOpt", "src/Options.cxx:findOpt", "src/Options.cxx:printHelp"]}
{"id": "C40", "title": "Every subscriber receives every message put after it subscribed, once, in order", "statement": "In every history of mailbox operations by any number of threads, the (non-null) messages a subscriber has received, followed by the ones still waiting for it, are exactly the messages put since it subscribed (or since it last cleared), excluding those put with its own subscription as sender, in the order they were put. The order of the history agrees with the order of the calls of each thread.", "quantifier": "all finite interleavings of operations of any number of threads and subscribers", "why_tests_cant": "all schedules and histories", "anchors": ["include/MailBox.hxx:put", "include/MailBox.hxx:get", "include/MailBox.hxx:subscribe"]}
{"id": "C41", "title": "Subscribers see messages in one common order", "statement": "Any two messages received by two subscribers are received in the same relative order by both, and messages of one sender arrive in sending order.", "quantifier": "all histories", "why_tests_cant": "all schedules", "anchors": ["include/MailBox.hxx:put"]}
{"id": "C42", "title": "One subscriber's actions never disturb another's mail", "statement": "get, clear, readyCount and unsubscribe by one subscriber leave every other subscriber's waiting messages unchanged; a subscriber that never reads does not block others.", "quantifier": "all histories", "why_tests_cant": "all schedules", "anchors": ["include/MailBox.hxx:get", "include/MailBox.hxx:clear", "include/MailBox.hxx:unsubscribe"]}
{"id": "C43", "title": "Ready counts are exact", "statement": "If no null pointers are sent, readyCount returns the number of waiting messages of the subscriber (below 2^32); minReadyCount returns the minimum over all current subscribers (capped at 2^32-1, which is also the result if there are none); subscriberCount the number of live subscriptions.", "quantifier": "all histories", "why_tests_cant": "all histories", "anchors": ["include/MailBox.hxx:readyCount", "include/MailBox.hxx:minReadyCount", "include/MailBox.hxx:subscriberCount"]}
{"id": "C44", "title": "A subscription used with the wrong mailbox is refused without effect", "statement": "get, put, clear and readyCount with a subscription obtained from another mailbox throw SubscriptionMismatch and change neither mailbox.", "quantifier": "all pairs of mailboxes and histories", "why_tests_cant": "all histories", "anchors": ["include/MailBox.hxx:getIndex"]}
{"id": "C45", "title": "Subscription ids are never reused and dead subscriptions get nothing", "statement": "Every subscribe returns an id different from all ids handed out before by the mailbox (up to 2^31 subscriptions); after a subscription is dropped the mailbox keeps no message for it and its id is unknown.", "quantifier": "all histories with fewer than 2^31 subscribes", "why_tests_cant": "long histories", "anchors": ["include/MailBox.hxx:subscribe", "include/MailBox.hxx:unsubscribe"]}
{"id": "C46", "title": "Messages are released when the last interested subscriber is done", "statement": "The mailbox holds a reference to a message if and only if some live subscriber that subscribed before it was put (and is not its no-echo sender) has not yet got or cleared it.", "quantifier": "all histories", "why_tests_cant": "leak freedom over all schedules", "anchors": ["include/MailBox.hxx:get", "include/MailBox.hxx:clear", "include/MailBox.hxx:~SubscriptionCl"]}
{"id": "C47", "title": "Dropping a subscription never terminates the program", "statement": "Destroying a Subscription object is safe in every history.", "quantifier": "all histories including explicit unsubscribe(int) calls", "why_tests_cant": "needs particular histories", "anchors": ["include/MailBox.hxx:~SubscriptionCl", "include/MailBox.hxx:unsubscribe"]}
{"id": "C48", "title": "No thread passes the barrier before all have arrived", "statement": "With n participating threads and a barrier for n waiters, without timeouts, in every schedule and for every k, no thread returns from its k-th wait before every thread has called wait at least k times.", "quantifier": "all n >= 1, all rounds k, all schedules", "why_tests_cant": "all interleavings", "anchors": ["src/Barrier.cxx:wait"]}
{"id": "C49", "title": "The barrier releases everybody", "statement": "Under the same conditions, once all n threads have called wait for the k-th time nobody stays blocked: no wake-up is lost, no reachable state is deadlocked, and every thread can go on to the next round.", "quantifier": "all n >= 1, all rounds, all schedules, including spurious wake-ups", "why_tests_cant": "all interleavings", "anchors": ["src/Barrier.cxx:wait"]}
{"id": "C50", "title": "Timeout is thrown to the first and Corrupt to all other waiters", "statement": "If a waiter times out it gets Timeout and every other thread waiting at (or later arriving at) the barrier gets Corrupt.", "quantifier": "all schedules with timeouts", "why_tests_cant": "all interleavings with timeouts", "anchors": ["src/Barrier.cxx:wait", "include/Barrier.hxx:Corrupt"]}
{"id": "C51", "title": "Surplus threads wait for the next full group", "statement": "With more threads than the barrier's count, at most n*floor(a/n) of the first a calls to wait have returned normally at any time (no timeouts).", "quantifier": "all numbers of threads and schedules", "why_tests_cant": "race window between reading the generation and taking the lock", "anchors": ["src/Barrier.cxx:wait", "include/Barrier.hxx page comment"]}
{"id": "C52", "title": "Path lookup finds the node at the path", "statement": "get(v, \"a:b:c\") reads the value stored under key c in the dictionary under b under a, for every tree and path.", "quantifier": "all trees, all paths", "why_tests_cant": "trees of any depth", "anchors": ["src/PropertyTree.cxx:getPropRecursive", "include/PropertyTree.hxx:get"]}
{"id": "C53", "title": "Missing paths are reported", "statement": "get on a path that does not exist throws PropertyNotFound; with throw_exception=false getProp returns nullptr.", "quantifier": "all trees and paths", "why_tests_cant": "all trees", "anchors": ["src/PropertyTree.cxx:getProp", "include/PropertyTree.hxx:get"]}
{"id": "C54", "title": "Reading YAML preserves nested maps of scalars", "statement": "After readFile of a document made of nested maps with scalar leaves, the dictionary of the root mirrors the document: each key leads to its scalar or its nested dictionary, the last of duplicate keys winning, and getKeys lists each key once in ascending order.", "quantifier": "all documents of nested maps of any depth", "why_tests_cant": "documents of any depth and size", "anchors": ["src/PropertyTreeYAML.cxx:fillRecurse", "src/PropertyTree.cxx:getKeys"]}
{"id": "C55", "title": "YAML sequences of scalars are kept in order", "statement": "The scalars of a sequence found as a map value appear, in order, in the list of the node holding the map; the sequence's key is not recorded.", "quantifier": "all documents", "why_tests_cant": "documents of any size", "anchors": ["src/PropertyTreeYAML.cxx:fillRecurse", "src/PropertyTree.cxx:getList"]}
{"id": "C56", "title": "Mailbox exceptions say which mailboxes are involved", "statement": "The text of SubscriptionMismatch names both the mailbox that was called and the mailbox the subscription belongs to; the text of MissingSubscriber names the mailbox and the id.", "quantifier": "all mailbox names", "why_tests_cant": "all names", "anchors": ["include/MailBox.hxx:SubscriptionMismatch", "include/MailBox.hxx:MissingSubscriber"]}
{"id": "C57", "title": "The unlocked read of the generation is no data race when used as intended", "statement": "With exactly n threads at a barrier for n and no timeouts, no reachable state has one thread about to read barrier_count without the mutex and another about to write it; with a surplus thread, or with a timeout, such a state is reachable.", "quantifier": "all n >= 1, all schedules", "why_tests_cant": "data races show up in rare interleavings only", "anchors": ["src/Barrier.cxx:wait"]}
{"id": "C58", "title": "Barrier exception texts", "statement": "For every barrier name (also one containing % fields) and every timeout t in ms below 2^64, Timeout's what() is 'Barrier <name> timed out after <t> ms. Current state is dangerous' and a newline, with 86400000000 in place of t = 0, and Corrupt's what() is 'Barrier <name> is corrupted.' and a newline.", "quantifier": "all names, all timeouts", "why_tests_cant": "all names and numbers", "anchors": ["include/Barrier.hxx:Timeout", "include/Barrier.hxx:Corrupt", "src/Barrier.cxx:wait"]}
{"id": "C59", "title": "Reading a second file", "statement": "Reading a second document into a property tree: every key the new document contributes leads to exactly what it would lead to in a tree of the new document alone (nested dictionaries are replaced, not merged), every other key is as before, and the new list items follow the old ones.", "quantifier": "all trees, all readable documents, all paths", "why_tests_cant": "unbounded trees and documents", "anchors": ["src/PropertyTreeYAML.cxx:readFile", "src/PropertyTreeYAML.cxx:fillRecurse"]}
{"id": "C60", "title": "Property tree exception texts", "statement": "For all strings, the texts of FileNotFound, PropertyNotFound and BadPropertyType contain the path, value string and type passed to them.", "quantifier": "all strings (also with % fields)", "why_tests_cant": "all strings", "anchors": ["src/PropertyTree.cxx:FileNotFound", "src/PropertyTree.cxx:PropertyNotFound", "src/PropertyTree.cxx:BadPropertyType"]}
{"id": "C61", "title": "Values of property nodes", "statement": "PropNode::get<std::string> yields the first word of the value and get<int> the integer the value begins with, if in range; in all other cases the result is false, or BadPropertyType if exceptions are requested.", "quantifier": "all nodes and value strings", "why_tests_cant": "all strings", "anchors": ["include/PropertyTree.hxx:PropNode::get"]}
{"id": "C62", "title": "Which documents can be read, and what the tree is then", "statement": "readFile ends normally exactly for documents with scalar keys and without a non-empty sequence at the top or within a sequence; then the tree is determined at every path by the contributions of the document, elements of sequences contributing to the node that holds the sequence; where a nested sequence stops the reading, what precedes it in the map stays.", "quantifier": "all documents", "why_tests_cant": "documents of any shape and depth", "anchors": ["src/PropertyTreeYAML.cxx:fillRecurse", "src/PropertyTreeYAML.cxx:readFile"]}
{"id": "C63", "title": "Dump shows every scalar", "statement": "After reading any readable document, every scalar under a key is a line of dump's output: two spaces per level, key, colon, two spaces, scalar; every list item is a line with its indentation; the complete text is known for trees of one level.", "quantifier": "all readable documents, all paths", "why_tests_cant": "unbounded documents", "anchors": ["src/PropertyTree.cxx:dump"]}
{"id": "C64", "title": "Subscribe, wait at the barrier, then send: no message is lost", "statement": "If n threads share a mailbox and a barrier for n, every thread subscribes only before it calls wait and sends only after wait has returned to it, and no wait times out, then in every interleaving each subscriber that has neither unsubscribed nor cleared has received, or has waiting, every message ever sent by anybody (except those sent with its own subscription), each exactly once and in the order of sending. Without the barrier this fails.", "quantifier": "all n below 2^32, all interleavings of mailbox and barrier statements, all messages, all other calls of the threads", "why_tests_cant": "MailBoxTest runs this protocol under the few schedules the machine happens to choose; a lost message needs a subscription that is late by a few instructions.", "anchors": ["include/MailBox.hxx:104-116", "test/MailBoxTest.cxx:43-60", "include/MailBox.hxx:306-361", "src/Barrier.cxx:52-100"]}
{"id": "C65", "title": "Scientific notation is correctly rounded and normalised", "statement": "addF(v,'s',w,d) inserts a '-' for negative v, one digit that is not zero unless v is, a point and exactly d fraction digits (no point when d = 0), and an exponent 'e', sign, at least two digits; the number read back is within half a unit of its last digit of v; left-justified and space padded to w (d+4 when w = 0).", "quantifier": "all finite doubles (all non-negative rationals with a sign); all widths and digit counts that fit in an int (with the four extra columns)", "why_tests_cant": "accuracy over the whole range, including values that round up to the next power of ten", "anchors": ["src/Format.cxx:addF"]}
{"id": "C66", "title": "Default notation keeps the asked significant digits and no trailing zeros", "statement": "addF(v,'g',w,d) inserts v rounded to p = max(d,1) significant digits (half a unit of the p-th digit), without trailing fraction zeros or a bare point; the text has an exponent exactly when the exponent x of the rounded value is below -4 or at least p, and then one non-zero digit stands before the point; zero is \"0\"; left-justified and space padded to w (d+4 when w = 0).", "quantifier": "all finite doubles (all non-negative rationals with a sign); all widths and digit counts that fit in an int (with the four extra columns)", "why_tests_cant": "accuracy and choice of notation over the whole range", "anchors": ["src/Format.cxx:addF"]}
{"id": "C67", "title": "Unknown float format characters fill the placeholder with nothing", "statement": "addF(v,c,w,d) with c other than 'f','s','g','e' and finite v fills the next placeholder with the empty text, whatever w and d: no exception, no padding.", "quantifier": "all finite doubles, all characters but the four, all widths and digit counts, all formatters", "why_tests_cant": "all characters and states", "anchors": ["src/Format.cxx:addF"]}
{"id": "C68", "title": "Chained calls on an extended formatter all work on the same object", "statement": "For a class T derived from Format_ext<T> (constructed with p = this, implicit copies), the expression x.add1(...).add2(...)... has the effect of the calls in turn on x, leaves every other object alone and returns a reference to x, in every program that constructs, copies, assigns, destroys and uses such formatters.", "quantifier": "all programs (statement sequences), all objects, all chains of add calls of any length", "why_tests_cant": "all histories of object creation and copying; references to destroyed objects", "anchors": ["include/Format.hxx:Format_ext"]}
{"id": "C69", "title": "The methods of an extended formatter insert what the methods of Format insert", "statement": "Each add method of Format_ext, given the same arguments, fills the placeholder with the same text as the method of Format it wraps; in particular addU for every unsigned long.", "quantifier": "all arguments of the parameter types of Format, all formatter states", "why_tests_cant": "2^64 values", "anchors": ["include/Format.hxx:Format_ext"]}
{"id": "C70", "title": "convert returns the same mailbox exactly when it has the requested type", "statement": "MailBoxBase::convert<T>(p) returns a pointer to the mailbox p points to if that mailbox is a T, throws BadConversion if it is not, and is undefined (null dereference) exactly for a null pointer.", "quantifier": "all mailboxes, all class hierarchies, all requested types", "why_tests_cant": "all class hierarchies", "anchors": ["include/MailBox.hxx:MailBoxBase::convert"]}
{"id": "C71", "title": "A failed mailbox conversion names the mailbox and both types", "statement": "The text of the BadConversion thrown by convert<T>(p) contains the name of the mailbox, the type of the mailbox and the requested type, whatever characters these names consist of.", "quantifier": "all mailbox names, all types and type names", "why_tests_cant": "all names, including names with % signs", "anchors": ["include/MailBox.hxx:MailBoxBase::convert", "include/MailBox.hxx:BadConversion"]}
{"id": "C72", "title": "roundToSigDigs rounds to the asked number of significant digits", "statement": "roundToSigDigs(v, s) returns, for every finite double v and 1 <= s <= 15, a whole number of at most s digits times a power of ten that is at most half a unit away from |v| (with the sign of v; zero for zero).", "quantifier": "all finite doubles, 1 to 15 digits", "why_tests_cant": "termination and accuracy over the whole range", "anchors": ["src/Format.cxx:roundToSigDigs"]}
{"id": "C73", "title": "Options of type double store the nearest double", "statement": "A double option accepts exactly the texts that begin (after white space) with a decimal real number, fraction and exponent optional, of finite rounding, and stores the double nearest to the number written; everything else is rejected.", "quantifier": "all texts, all option objects", "why_tests_cant": "all texts; correct rounding", "anchors": ["include/Options.hxx:setValBase", "include/Options.hxx:Opt::setVal"]}
{"id": "C74", "title": "A double printed by addF is read back exactly", "statement": "The text addF prints for a finite double in scientific notation with at least 16 fraction digits, or in default notation with at least 17 digits, given as the value of a double option, stores the same double again; with 15 fraction digits different doubles can print alike.", "quantifier": "all finite doubles, all widths, all precisions from the bound on", "why_tests_cant": "2^64 doubles, all precisions", "anchors": ["src/Format.cxx:Format::addF", "include/Options.hxx:setValBase"]}
{"id": "C75", "title": "Signed integer options of any size", "statement": "An option of a signed integer type of b bits accepts exactly the texts that begin (after white space) with an integer from -2^(b-1) to 2^(b-1)-1 and stores that integer; every such integer printed by addI without separator, at any width below 2^31, is read back.", "quantifier": "all sizes, all texts, all integers", "why_tests_cant": "all texts and sizes", "anchors": ["include/Options.hxx:setValBase", "src/Format.cxx:Format::addI"]}
{"id": "C76", "title": "Unsigned integer options", "statement": "An option of an unsigned type of b bits accepts exactly the texts that begin (after white space) with an integer from 0 to 2^b-1, stores that integer, and rejects everything else; numbers printed by addU in decimal are read back.", "quantifier": "all sizes, all texts", "why_tests_cant": "all texts and sizes", "anchors": ["include/Options.hxx:setValBase", "src/Format.cxx:Format::addU"]}
{"id": "C77", "title": "char options store the first character", "statement": "A char option stores the first character of its text that is not white space, whatever follows it, and rejects a text that has none.", "quantifier": "all texts", "why_tests_cant": "all texts", "anchors": ["include/Options.hxx:setValBase"]}
{"id": "C78", "title": "The diagnostics say what is wrong with the command line", "statement": "parse returns false exactly if the line contains an unknown switch, a help request or a rejected value before its end; for the first of these it writes, respectively, the unknown switch followed by the help text, the help text, or the name of the option, the text and the message registered with the option; otherwise it writes nothing. (Names, messages and tokens without null characters.)", "quantifier": "all option objects, all command lines without null characters", "why_tests_cant": "all command lines", "anchors": ["src/Options.cxx:Options::parse", "src/Options.cxx:Options::printHelp", "include/Options.hxx:BadOptName", "include/Options.hxx:BadOptValue"]}
{"id": "C79", "title": "The documented form --name=value", "statement": "A token --name=value, where name is the name of an option and value a text it accepts, sets the option to the value.", "quantifier": "all option objects, all names and values", "why_tests_cant": "all names and values", "anchors": ["include/Options.hxx:Options", "src/Options.cxx:Options::parse"]}
{"id": "C80", "title": "Data races at the barrier", "statement": "With exactly n threads and no timeouts, no two steps of an execution are a data race: whenever two threads access the same member of the barrier and one of them writes it, one access happens before the other. With surplus threads or timeouts, the only data races are between the unlocked read of barrier_count at the beginning of wait and an assignment to it; both kinds occur.", "quantifier": "all n, all executions of any length, all pairs of steps", "why_tests_cant": "all interleavings", "anchors": ["src/Barrier.cxx:Barrier::wait"]}
{"id": "C81", "title": "The barrier orders memory", "statement": "With exactly n threads and no timeouts: everything a thread did before its k-th call of wait happens before everything any thread does after its k-th return from wait.", "quantifier": "all n, all k, all pairs of threads, all executions", "why_tests_cant": "all interleavings; missing synchronisation is invisible on most hardware", "anchors": ["src/Barrier.cxx:Barrier::wait"]}
{"id": "C82", "title": "The mailbox orders memory", "statement": "Any two accesses to the state of a mailbox are ordered by happens-before. If get returns a message, then everything the sender did before a put of this message happens before everything the receiver does after this get.", "quantifier": "all executions of any number of threads", "why_tests_cant": "all interleavings", "anchors": ["include/MailBox.hxx:MailBox"]}
{"id": "C83", "title": "Nobody is left asleep at the barrier", "statement": "With any number of threads and any timeouts: if a thread sleeps in wait although the generation it waits for is over, the owner of the mutex is about to execute notify_all. If the threads inside wait are run until none can proceed, which takes boundedly many statements, then the mutex is free and every thread has left wait or waits for the current generation.", "quantifier": "all executions with any number of threads, spurious wake-ups and timeouts", "why_tests_cant": "a lost wake-up needs one particular interleaving", "anchors": ["src/Barrier.cxx:Barrier::wait"]}
{"id": "C84", "title": "Options of type float", "statement": "A float option accepts exactly the texts that begin, after white space, with a decimal number that rounds to a finite float, and stores that float; no float is nearer to the number written. A number is out of range exactly if it is at least (2^25-1)*2^103.", "quantifier": "all option objects, texts and numbers", "why_tests_cant": "infinitely many decimal texts, including halfway cases, subnormals and the overflow limit", "anchors": ["include/Options.hxx:setValBase", "include/Options.hxx:Opt"]}
{"id": "C85", "title": "Nine digits carry a float from Format to Options", "statement": "What addF prints for any finite float in scientific notation with at least 8 fraction digits, or in default notation with at least 9 significant digits, is read back by a float option as exactly that float. Eight significant digits are not enough.", "quantifier": "all finite floats, widths and precisions", "why_tests_cant": "2^32 floats times all precisions", "anchors": ["src/Format.cxx:Format::addF", "include/Options.hxx:setValBase"]}
{"id": "C86", "title": "Property values of type bool, char, float, double and sized integers", "statement": "PropNode::get<T> yields: for integers the integer the value begins with if it is in range (a minus sign negates modulo 2^bits for unsigned types), for double and float the decimal number the value begins with rounded to the type, for char the first character that is not white space, for bool the integer 0 or 1 the value begins with. In all other cases (for bool also for the words true and false) the result is false or BadPropertyType.", "quantifier": "all nodes and value strings", "why_tests_cant": "all value strings", "anchors": ["include/PropertyTree.hxx:PropNode::get"]}
{"id": "C87", "title": "The checks of the mailbox test program always succeed", "statement": "In the program test/MailBoxTest.cxx, for every number of threads, messages and trials whose products fit an int, with or without --noecho, and for every interleaving in which nobody waits 1000 days at the barrier: no call throws, every thread that returns returns 0 (it has seen the right sum in every trial, no extra message, and minReadyCount of 0), it has received each message of every (other) thread exactly once and in the order sent, the mailbox is empty in the end, each thread makes a bounded number of calls other than calls of get that find nothing, and from every reachable state all threads can still return.", "quantifier": "all parameters, all interleavings of any length", "why_tests_cant": "the test itself runs one schedule for a few parameters", "anchors": ["test/MailBoxTest.cxx:objMailBoxTest", "include/MailBox.hxx:MailBox", "src/Barrier.cxx:Barrier::wait"]}
{"id": "C88", "title": "Printed numbers read back, and the number test program cannot fail", "statement": "A finite number between 1e-304 and 1e304 (or zero), printed by addF in engineering, scientific or default notation with at most six digits and any width, is read back by operator>> with the same sign and a relative error below 5/10^d (below 3 for no digits); zero is read back as zero. Hence the check of test/FormatTest.cxx accepts every such number, and its runBigTest counts no error whatever numbers are drawn.", "quantifier": "all numbers in the range, all widths, up to six digits, three notations, all sequences of test values", "why_tests_cant": "the test draws a few thousand random numbers", "anchors": ["src/Format.cxx:Format::addF", "test/FormatTest.cxx:doTest", "test/FormatTest.cxx:runBigTest"]}
{"id": "C89", "title": "What a refused value leaves behind", "statement": "When parse returns false because a scalar option does not accept the text, the variable has been changed: a number out of range leaves the nearest number in range (unsigned types: the largest number; double and float: the largest finite number with the sign written), a text that does not begin with a number leaves 0, a value refused by the test function stays in the variable. A blank text leaves the variable alone; for bool every refused text except the empty one does. Vectors, positional words, presence marks and all other variables are unchanged.", "quantifier": "all registrations, texts and types", "why_tests_cant": "all texts", "anchors": ["include/Options.hxx:setValBase", "include/Options.hxx:Opt::setVal", "src/Options.cxx:Options::parse"]}
{"id": "C90", "title": "The barrier test program always ends, with exit code 0", "statement": "test/BarrierTest.cxx, for every command line made of its options and all schedules: the parameters are the last values given or the defaults; every execution is finite (a bound on its steps is given) and can always go on until main returns; the exit code is 0 whatever happens. If no deadline is reached, no thread catches an exception, threads that are about to begin a trial are in the same trial, and at the end every thread has passed the barrier as often as there are trials. The behaviour is defined exactly if no thread is asked for, or the longest wait is not 0 and at most 9157 threads are asked for.", "quantifier": "all parameters, all command lines, all interleavings, spurious wake-ups and deadlines", "why_tests_cant": "the program is itself a test, which runs one interleaving", "anchors": ["test/BarrierTest.cxx:main", "test/BarrierTest.cxx:testBarrier", "test/BarrierTest.cxx:threadBarrierTest", "src/Barrier.cxx:Barrier::wait"]}
{"id": "C91", "title": "A timeout needs a missing thread", "statement": "n threads use a barrier for n with timeouts. If wait throws, then some deadline passed while a thread was missing, i.e. had entered the barrier less often than the thread whose deadline passed. As long as that has not happened, deadlines may pass at any moment (also between the last arrival and the wake-up): nobody passes before everybody has arrived, everybody is released, there is no data race, the calls of round k happen before its returns, and the protocol of C64 and the test programs of C87 and C90 work as without deadlines. In particular no exception is thrown if everybody enters each round less than the timeout after the first one.", "quantifier": "all n, interleavings, spurious wake-ups and deadlines; all times", "why_tests_cant": "needs a deadline in the moments between the last arrival and the wake-up", "anchors": ["src/Barrier.cxx:Barrier::wait", "include/Barrier.hxx:wait", "test/BarrierTest.cxx:threadBarrierTest", "test/MailBoxTest.cxx:objMailBoxTest"]}
{"id": "C92", "title": "Property trees in memory", "statement": "With nodes as objects in memory (created with new, linked by child and parent pointers), for every sequence of constructions, copies, assignments, readings and destructions: every variable leads to exactly one finite tree with correct parent pointers; two variables have all nodes in common or none; every readFile is defined and gives the tree and the outcome described by C52-C63; getProp, get, getPathName and dump through pointers are defined, end, and give what C52-C63 say.", "quantifier": "all programs with any number of tree objects, all documents, paths and types", "why_tests_cant": "all shapes of memory; absence of undefined behaviour", "anchors": ["src/PropertyTree.cxx:PropNode", "src/PropertyTree.cxx:getPathName", "src/PropertyTree.cxx:getPropRecursive", "src/PropertyTree.cxx:dump", "src/PropertyTreeYAML.cxx:readFile", "src/PropertyTreeYAML.cxx:fillRecurse"]}
{"id": "C93", "title": "Copies of a property tree are independent", "statement": "After a tree object has been copied or assigned, reading a file into one of the two leaves the tree of the other as it is.", "quantifier": "all programs, all documents", "why_tests_cant": "all programs", "anchors": ["include/PropertyTree.hxx:PropertyTree", "src/PropertyTreeYAML.cxx:readFile"]}
{"id": "C94", "title": "The nodes of property trees are never released", "statement": "A program that reads documents without errors has, at every moment, exactly as many nodes in memory as it ever made: one per construction and as many as the contents of each document read, whatever has been destroyed or replaced since. When the last variable is gone nothing leads to any of them. Reading a document again that is already in the tree leaves the tree as it is and costs its number of nodes each time.", "quantifier": "all programs, all documents, all numbers of repetitions", "why_tests_cant": "needs memory accounting, unboundedly many readings", "anchors": ["include/PropertyTree.hxx:PropertyTree", "src/PropertyTree.cxx:PropNode", "src/PropertyTreeYAML.cxx:fillRecurse"]}
{"id": "C95", "title": "What CTest concludes from the test programs of the barrier and the mailbox", "statement": "For all parameters and all schedules, and however the outputs of the threads are interleaved: when BarrierTest has ended, the words \"Ooops, dang!\" are in its output exactly if a thread has caught an exception, so that FastBarrierTest passes exactly if none has and FastBarrierTest_should_timeout exactly if one has. If FastBarrierTest fails, a deadline has passed while a thread was missing at the barrier. Both outcomes are possible for all parameters with at least two threads and one trial. No thread of MailBoxTest writes anything unless somebody waits 1000 days at the barrier, and when all threads have ended MailBoxTest1 and MailBoxTest2 pass. A thread of MailBoxTest complains exactly if the sum of the messages of a trial is wrong or if there is a message after the trials, its complaint has the word that CTest looks for, and these tests pass exactly if nobody has complained and no message exists any more. Options in any order, short or long, set the numbers of messages, threads and trials and whether a thread sees its own messages.", "quantifier": "all parameters, all interleavings of the programs and of their outputs", "why_tests_cant": "these are the tests: the question is which behaviours of the library they accept", "anchors": ["test/BarrierTest.cxx:main", "test/MailBoxTest.cxx:main", "test/CMakeLists.txt"]}
{"id": "C96", "title": "Life of a barrier", "statement": "A barrier made by makeBarrier is destroyed exactly once, when the last of all pointers to it that any thread has received is dropped, and never while a thread is in one of its functions or may still enter one.", "quantifier": "all numbers of threads, all ways of passing the pointer on, all interleavings, spurious wake-ups", "why_tests_cant": "a use after destruction usually goes unnoticed and depends on the schedule", "anchors": ["include/Barrier.hxx:makeBarrier", "src/Barrier.cxx:makeBarrier", "src/Barrier.cxx:wait"]}
{"id": "C97", "title": "Programs whose threads meet at a barrier are executed phase by phase", "statement": "In a program whose main thread creates the other threads and in which as many threads as the barrier has waiters call wait: no statement that follows the k-th wait of any thread is executed before a statement that precedes the k-th wait of some thread, as long as deadlines pass only when all threads have come. If all threads wait equally often, and the main thread creates the threads before it waits and joins them afterwards, the program never stops before all statements have been executed, each once, and it can take no more steps than a bound. examples/BarrierExample.cxx, with any number of threads, writes first the arrival of all threads in some order, then the numbers of the threads in some order, then that the barrier is clear, and ends. Every order of the arrivals and every order of the numbers after them is possible.", "quantifier": "all programs of this form, all numbers of threads and waits, all interleavings", "why_tests_cant": "unboundedly many interleavings", "anchors": ["examples/BarrierExample.cxx:main", "examples/BarrierExample.cxx:barrierExample", "src/Barrier.cxx:wait"]}
{"id": "C98", "title": "Radix separator", "statement": "With SoDa::Format::separator set to a character c, addF inserts the text it inserts for '.' with c in place of the radix point.", "quantifier": "all values, formats, widths and numbers of digits, all separators", "why_tests_cant": "infinitely many values and separators; no test sets the separator", "anchors": ["include/Format.hxx:separator", "src/Format.cxx:addF"]}
{"id": "C99", "title": "Default width of addF", "statement": "With the default width the text inserted by addF takes up only as much room as the value requires: it is not followed by spaces.", "quantifier": "all values, formats, widths and numbers of digits", "why_tests_cant": "infinitely many values; the tests that compare texts use few values and trailing spaces hardly show", "anchors": ["include/Format.hxx:addF", "src/Format.cxx:addF"]}
{"id": "C100", "title": "Width of addF", "statement": "With a width w > 0 the text inserted by addF is left-justified in a field of w characters: it is followed by just as many spaces as it is shorter than w.", "quantifier": "all values, formats, widths and numbers of digits", "why_tests_cant": "infinitely many combinations of values, widths and digits", "anchors": ["include/Format.hxx:addF", "src/Format.cxx:addF"]}
{"id": "C101", "title": "Number of digits in engineering notation", "statement": "In engineering notation the sum of the number of integer and fraction digits is equal to the significant_digits value.", "quantifier": "all non-zero values, all numbers of digits", "why_tests_cant": "the exceptions are rare values", "anchors": ["include/Format.hxx:addF", "src/Format.cxx:fractionate", "src/Format.cxx:getIntPartWidth"]}
{"id": "C102", "title": "When a barrier may be destroyed", "statement": "A barrier that is not owned by the pointers of makeBarrier may be destroyed by a thread as soon as its own wait has returned, provided that no further calls are made.", "quantifier": "all numbers of threads, all interleavings, spurious wake-ups", "why_tests_cant": "a use after destruction usually goes unnoticed and depends on the schedule", "anchors": ["include/Barrier.hxx:Barrier", "src/Barrier.cxx:wait"]}
{"id": "C103", "title": "Several Options objects", "statement": "In a program with any number of Options objects, some of them copies of others, every object answers like an object that lives by itself and got the calls of its own past (a copy takes over the past of its original): the same positional arguments, help, return values, messages and isPresent.", "quantifier": "all programs: construction, copies, assignments, destruction and calls of any member functions in any order, all command lines and option types", "why_tests_cant": "unbounded sequences of operations on several objects; the tests use one object each and never copy one", "anchors": ["include/Options.hxx:Options", "src/Options.cxx:registerOpt", "src/Options.cxx:isPresent", "src/Options.cxx:parse"]}
{"id": "C104", "title": "Catching SoDa::Exception", "statement": "Any exception that leaves a function of the library can be caught as SoDa::Exception.", "quantifier": "all files given to PropertyTreeYAML::readFile (the other functions throw classes derived from it or nothing)", "why_tests_cant": "unboundedly many documents; the tests read well-formed files", "anchors": ["include/Exception.hxx:Exception", "src/PropertyTreeYAML.cxx:readFile", "src/PropertyTreeYAML.cxx:fillRecurse"]}
{"id": "C105", "title": "A mailbox refuses the subscriptions of other mailboxes, in programs that construct and destroy mailboxes", "statement": "In a program with any number of mailboxes, each one's state is determined by the calls on it since its construction, and a call with a subscription that the mailbox did not hand out throws SubscriptionMismatch and changes nothing.", "quantifier": "all sequences of constructions, destructions, calls and destructions of subscriptions, by any number of threads, at any addresses", "why_tests_cant": "needs a mailbox constructed where another one has been destroyed while one of its subscriptions is kept; unboundedly many programs", "anchors": ["include/MailBox.hxx:SubscriptionCl::getIndex", "include/MailBox.hxx:~SubscriptionCl", "include/MailBox.hxx:subscribe"]}
{"id": "C106", "title": "A wrong answer of the library makes its test fail", "statement": "If the library gives another answer than SplitTest, FormatHexTest, FormatNaN, FormatTest or OptionsTest writes down for an input, CTest reports that the test has failed.", "quantifier": "all answers the library functions called by these programs might give", "why_tests_cant": "it is about the tests: it would have to be tried with every wrong library", "anchors": ["test/SplitTest.cxx:main", "test/FormatHexTest.cxx:main", "test/FormatNaN.cxx:main", "test/FormatTest.cxx:main", "test/OptionsTest.cxx:testPosArgs", "test/OptionsTest.cxx:main", "test/CMakeLists.txt"]}
{"id": "C107", "title": "A mailbox call that runs out of memory has no effect", "statement": "If a request for memory fails inside a method of a mailbox, the method throws std::bad_alloc and has no effect: no subscriber has the message of a put that failed, nobody is subscribed, and the mailbox can be used as before, with every message delivered once and in order.", "quantifier": "all interleavings of all calls by any number of threads, and all choices of which requests for memory fail", "why_tests_cant": "every request for memory of every call would have to fail once, in every state of the mailbox", "anchors": ["include/MailBox.hxx:MailBox::subscribe", "include/MailBox.hxx:MailBox::put", "include/MailBox.hxx:MailBox::minReadyCount", "include/MailBox.hxx:SubscriptionCl::~SubscriptionCl"]}
{"id": "C108", "title": "OptionsExample shows the values given on its command line", "statement": "For every command line: OptionsExample writes the value of each option as given by its last occurrence on the command line or its default, the list arguments and the positional arguments in order with their numbers; if the command line is accepted, it then writes the same with the two values of the command string in the program (intarg 3, str \"this is a test\"); otherwise it ends with status -1.", "quantifier": "all command lines", "why_tests_cant": "the program is not run by a test, and the violating line ends in an option without its value", "anchors": ["example/OptionsExample.cxx:main", "src/Options.cxx:parse"]}
{"id": "C109", "title": "The YAML test program and the YAML example for all command lines and files", "statement": "PropertyTreeYAML_Test and PropertyTreeYamlExample return 0 exactly if no argument looks like a switch and the first one names a file whose document can be read into a tree; then every scalar is on a line of the output, after its key and indented by its depth. Without a file name or with a switch the status is -1, otherwise an exception ends the program, and nothing is written to the standard output.", "quantifier": "all command lines, all contents of the file", "why_tests_cant": "one file and one command line is tested", "anchors": ["test/PropertyTreeYAML_Test.cxx:main", "example/PropertyTreeYamlExample.cxx:main"]}
{"id": "C110", "title": "Calls that leave out the optional arguments", "statement": "A number or text added to a format without further arguments is inserted as it is, in decimal and without padding or separators (addF: fixed, 6 digits); the further arguments have the defaults of the documentation one by one; str() does not throw; split keeps empty fields; an option without a test accepts every value that can be read; getProp and get of a node do not throw unless asked to.", "quantifier": "all objects, values and arguments that are given", "why_tests_cant": "all values and all states of the objects", "anchors": ["include/Format.hxx:addI", "include/Format.hxx:addU", "include/Format.hxx:addF", "include/Utils.hxx:split", "include/Options.hxx:add", "include/PropertyTree.hxx:getProp"]}
{"id": "C111", "title": "Options with test functions that look at variables, change them, or throw", "statement": "For all test functions and every command line: each test function is called with the value of its option in the variables that the items before it on the line have left; if it accepts, the value is stored after what it has changed; if it refuses or throws one of the two exceptions of the library, parse reports that and returns false; any other exception leaves parse, with the items before it in effect and nothing reported. Each further line is then read as such, whatever the lines before it have ended with.", "quantifier": "all objects, command lines and test functions, including those with side effects and exceptions", "why_tests_cant": "all functions, and all lines; the violating history needs a test function that throws followed by a further line", "anchors": ["src/Options.cxx:parse", "include/Options.hxx:OptScalar::setVal", "include/Options.hxx:OptVec::setVal"]}
{"id": "C112", "title": "Messages as objects: never destroyed while somebody has a pointer, destroyed once when nobody has", "statement": "In every program of any number of threads that construct messages, copy, hand over, move and destroy shared pointers to them, and call the mailbox: a message to which there is a pointer in a queue of the mailbox or in the program is alive; a message is destroyed exactly once, as soon as there is no pointer to it any more; this happens where the program destroys its last pointer, at the end of a call of put, or inside a call that throws messages away (clear, unsubscribe, destruction of a subscription), and never while the mutex of the mailbox is held, so that destructors of messages may use the mailbox. After the mailbox is destroyed only messages to which the program has pointers are left.", "quantifier": "all programs, threads, interleavings and messages", "why_tests_cant": "all interleavings of reference counting and calls; needs instrumented destructors to see", "anchors": ["include/MailBox.hxx:get", "include/MailBox.hxx:put", "include/MailBox.hxx:clear", "include/MailBox.hxx:unsubscribe", "include/MailBox.hxx:minReadyCount"]}
{"id": "C113", "title": "The timeouts of the barrier are those asked for", "statement": "With a steady clock, any number of threads and any timeouts, each call having its own: an exception is thrown by wait only when the timeout of that call has passed since the call (1000 days if it is zero), and never makes the program undefined; if everybody enters the barrier within everybody's timeout, nobody gets an exception, however late the waiting threads are scheduled; a waiting thread whose timeout has passed while the generation has not ended gets its exception when it is scheduled, without waiting for anybody.", "quantifier": "all executions, times and arguments of wait(unsigned long)", "why_tests_cant": "all interleavings and times; timeouts of up to 584 million years", "anchors": ["src/Barrier.cxx:wait", "include/Barrier.hxx:wait"]}
{"id": "C114", "title": "Format objects when memory runs out", "statement": "For every format string and every sequence of insertions, str and reset: a program that tries each call again until it succeeds prints exactly what it would print if no call had run out of memory; a call that throws std::bad_alloc leaves the printed text as it was.", "quantifier": "all format strings, sequences of calls, and requests for memory that fail", "why_tests_cant": "every request for memory of every call may fail", "anchors": ["src/Format.cxx:insertField", "src/Format.cxx:initialScan", "src/Format.cxx:reset", "src/Format.cxx:str"]}
{"id": "C115", "title": "Registering options when memory runs out", "statement": "A program that registers options and parses command lines, and tries every registration that throws std::bad_alloc again until it succeeds, gets the same return values, variables, positional arguments, present options, help and messages as if memory had sufficed; a registration that throws std::bad_alloc cannot be noticed afterwards.", "quantifier": "all programs of registrations and parses, and all requests for memory that fail in registrations", "why_tests_cant": "every request for memory of every registration may fail, any number of times", "anchors": ["include/Options.hxx:add", "include/Options.hxx:addP", "include/Options.hxx:addV", "src/Options.cxx:registerOpt", "src/Options.cxx:addInfo"]}
{"id": "C116", "title": "Parsing when memory runs out", "statement": "If Options::parse throws std::bad_alloc while it deals with a token, the positional arguments and vectors are those after parsing the tokens before it, and every variable and every present option is as after these, or as after these and the token; parsing the same line again then gives what the call would have given.", "quantifier": "all options, command lines, tokens and requests for memory that fail", "why_tests_cant": "every request for memory of every call may fail", "anchors": ["src/Options.cxx:parse", "include/Options.hxx:setVal"]}
{"id": "C117", "title": "Engineering notation with many digits", "statement": "addF(v,'e',w,d) has no undefined behaviour for any number of digits d.", "quantifier": "all finite doubles from 1e-304 to 1e304, all numbers of digits below 2^31", "why_tests_cant": "signed overflow of the digits collected in an int happens only for particular combinations of value and number of digits, and often goes unnoticed", "anchors": ["src/Format.cxx:fractionate"]}
{"id": "C118", "title": "Format objects in several threads", "statement": "Threads that use Format objects without synchronisation: an execution in which all threads come to their end has a data race exactly if one thread writes an object, or Format::separator, that another uses; if the threads use different objects, only assignments to the separator can be the cause. Without data race every thread gets the results it would get alone, and all executions give the same results.", "quantifier": "any number of threads, all programs of construction, copying, destruction, add calls, reset, str and assignments to the separator, all schedules", "why_tests_cant": "a data race shows itself only in some schedules, and absence of races in all schedules cannot be tested", "anchors": ["include/Format.hxx:separator", "src/Format.cxx:addF", "src/Format.cxx:insertField", "src/Format.cxx:str"]}
{"id": "C119", "title": "With fair scheduling every wait at the barrier ends", "statement": "In infinite executions in which a thread that can go on again and again (taking the mutex when it is free) does so at some time: with exactly as many threads as the barrier is for and no timeouts, if every thread calls wait for the k-th time then that call returns to every thread, however often threads wake up spuriously; with any number of threads, if the deadline of a thread that keeps sleeping in one call passes at some time, every call of wait ends, by returning or by an exception.", "quantifier": "all fair infinite executions, all k, all numbers of threads below 2^32", "why_tests_cant": "infinite executions; all schedules", "anchors": ["src/Barrier.cxx:wait"]}
{"id": "C120", "title": "With fair scheduling every call on a mailbox returns and every message is received", "statement": "In infinite executions of any number of threads in which a thread that can go on in its call again and again (taking the mutex when it is free) does so at some time: every call of a method of a mailbox returns; and if somebody asks for the messages of a subscription again and again, and the subscription is neither ended nor cleared, every message sent to it is received, in the order of sending.", "quantifier": "all fair infinite executions, all programs of the threads", "why_tests_cant": "infinite executions; all schedules", "anchors": ["include/MailBox.hxx:get", "include/MailBox.hxx:put", "include/MailBox.hxx:subscribe"]}
{"id": "C121", "title": "A property tree when memory runs out in readFile", "statement": "If std::bad_alloc is thrown while a YAML file is read into a property tree, the tree is the one that the beginning of the document gives, up to some place, at most one node is lost, objects with other nodes stay as they are, and later statements find proper trees; if it is thrown in a constructor there is no object. Some number of granted requests is enough for a document.", "quantifier": "all programs with tree objects, all documents, all points at which memory runs out", "why_tests_cant": "all points of failure in all documents; std::bad_alloc hardly occurs in tests", "anchors": ["src/PropertyTreeYAML.cxx:fillRecurse", "src/PropertyTreeYAML.cxx:readFile"]}
{"id": "C122", "title": "Reading a file again after memory ran out", "statement": "When a reading of a YAML file into a property tree has failed for lack of memory and is tried again with success, the tree is what it would have been if the first reading had succeeded.", "quantifier": "all programs with tree objects, all documents, all points at which memory runs out", "why_tests_cant": "all points of failure in all documents", "anchors": ["src/PropertyTreeYAML.cxx:fillRecurse", "src/PropertyTreeYAML.cxx:readFile"]}
{"id": "C123", "title": "Property trees in several threads", "statement": "If each thread has its own tree objects, and no two objects of different threads share nodes when the threads begin, every thread does exactly what it would do alone: its statements end in the same way and its trees are the same in every order of execution. The nodes that statements of different threads read or change are different ones.", "quantifier": "all programs, all numbers of threads, all orders of execution, all documents", "why_tests_cant": "all orders of execution", "anchors": ["src/PropertyTreeYAML.cxx:fillRecurse", "src/PropertyTree.cxx:dump", "include/PropertyTree.hxx:PropertyTree"]}
{"id": "C124", "title": "Files with mistakes in property trees", "statement": "A document that cannot be read has exactly one first mistake (a sequence at the top or in a sequence, or a value under a key that is not a scalar). Reading it throws the exception of that mistake, and the tree is then exactly what it is after reading the part of the document before the mistake: nothing of it is lost and nothing behind the mistake is taken. Other trees are unchanged. The number of nodes in memory after any program is the sum over its statements, files with mistakes included; a bad key costs one node that belongs to no tree.", "quantifier": "all documents, all trees, all programs", "why_tests_cant": "all documents with any mistake at any depth", "anchors": ["src/PropertyTreeYAML.cxx:fillRecurse", "src/PropertyTreeYAML.cxx:readFile", "include/PropertyTree.hxx:PropertyTree"]}
{"id": "C125", "title": "Documents with aliases in property trees", "statement": "Reading a file ends, with the tree or with an exception. A document with aliases is read as if every alias were replaced by what it stands for.", "quantifier": "all documents with finitely many nodes, aliases anywhere, all trees", "why_tests_cant": "all documents; endless recursion cannot be observed by a test", "anchors": ["src/PropertyTreeYAML.cxx:fillRecurse", "src/PropertyTreeYAML.cxx:readFile"]}
{"id": "C126", "title": "Options objects in several threads", "statement": "If every thread uses its own Options objects and registers options for its own variables, then every thread does what it does alone: what its calls return, the messages they write, the values of its variables, and what its objects report (presence, positional arguments, help) do not depend on the other threads or on the order; a course of events is possible exactly if every thread's part is possible alone, so the threads never make anything undefined for each other. At all times no option object is reachable from objects of two threads. A call writes only to its object, the flags and targets of its options, the variable it registers and new option objects, and looks only at its object and its options. (Copies of an object given to another thread are not such objects.)", "quantifier": "all numbers of threads, all programs of the threads, all interleavings, all starting states reachable by a program", "why_tests_cant": "all interleavings; independence of everything that other threads may do", "anchors": ["include/Options.hxx:Options", "src/Options.cxx:parse", "src/Options.cxx:registerOpt"]}
{"id": "C127", "title": "The mutexes of mailboxes: members are used with the mutex held, and threads do not wait for each other", "statement": "In every program of any number of threads and mailboxes, with messages whose destructors may call mailboxes: the members of a mailbox are used, and its mutex released, only by the thread that holds the mutex. No threads wait for each other at the mutexes (a thread that locks a mutex it holds already waits for itself), and as long as a thread has something to do some thread can go on, or the program has been ended by an exception in a destructor or undefined behaviour. Every mailbox goes through an execution in which a call takes its mutex, does what it does and releases it, so the properties of one mailbox hold for every mailbox of the program. (Freedom from deadlock fails for messages whose destructors call the mailbox they are in, for two mailboxes whose messages call each other, and for a subscribe that runs out of memory; it holds if there is an order of the mailboxes such that messages call upwards only.)", "quantifier": "all numbers of threads and mailboxes, all programs, all destructors of messages, all interleavings", "why_tests_cant": "all interleavings of all programs; a deadlock needs a particular schedule and messages with particular destructors", "anchors": ["include/MailBox.hxx:MailBox", "include/MailBox.hxx:SubscriptionCl"]}
{"id": "C128", "title": "Test functions that use the Options object while it parses", "statement": "Test functions of options may use the object that is parsing: ask which options are present and for the positional arguments, look at and change the variables, and parse further lines with it (an option that names a file of options). They see what the items before them have done (their own option is not present yet, a scalar variable already holds the value). A line that a test function parses is read like any other line at that place, and the outer call goes on after it with the rest of its own line; how deep calls are nested does not matter. (The reading as a line fails for lines parsed by test functions of options of signed types, and for a second line if the first has ended within such an option.)", "quantifier": "all registered options, all test functions described by what they see and do, all command lines, all depths of nesting", "why_tests_cant": "all test functions and lines; state shared by nested calls shows only for certain types of options in certain places", "anchors": ["src/Options.cxx:parse", "src/Options.cxx:isPresent", "src/Options.cxx:getPosArgs", "include/Options.hxx:setVal"]}
{"id": "C129", "title": "Numbers inserted in another locale", "statement": "A program may set another global locale, with separators between groups of digits and another decimal point. What Format inserts for a number is the text of the \"C\" locale whatever the locale is. (Violated: the streams of the library take the global locale. For addI and addU the text is the same exactly if the locale puts no separator into a number with that many digits; in notations 'f', 's' and 'g' exactly if moreover the point of the locale is the usual one or there is none; in notation 'e' exactly if none of the integer part, the fraction and the exponent gets a separator.)", "quantifier": "all locales (any separator, point and list of group sizes), all numbers, widths, separators, fill characters and notations", "why_tests_cant": "all locales and numbers; a test in the \"C\" locale never shows it", "anchors": ["src/Format.cxx:addI", "src/Format.cxx:addU", "src/Format.cxx:addF", "src/Format.cxx:str"]}
{"id": "C130", "title": "Values of options in another locale", "statement": "The value of an option is read in the same way whatever the global locale is. (Violated.) What Format writes in a locale (addI, addU in decimal with any width, addF in notations 'f', 's' and 'g') is read back in the same locale as the \"C\" locale reads what is written there. Digits and separators are taken exactly if there are no separators or all of them stand where the locale writes them. A number written with separators and read in the \"C\" locale is accepted, and only the digits before the first separator count. A number padded with zeros by addI is read back in its locale exactly if it has no separators or the zeros need none. Hexadecimal texts are read as 0. In notation 'e' the same holds if the point is the usual one and none of the numbers in the text needs a separator.", "quantifier": "all locales whose separator and point are no digits, signs or exponent marks, all numbers, all types, all texts", "why_tests_cant": "all locales and numbers; the wrong values are accepted without a message", "anchors": ["include/Options.hxx:setValBase", "src/Format.cxx:addI", "src/Format.cxx:addU", "src/Format.cxx:addF"]}
{"id": "C131", "title": "Mailboxes made by makeMailBox live as long as they are used", "statement": "Threads that dereference no null pointer may do what they like with the MailBoxPtrs and Subscriptions in their variables: a mailbox made by makeMailBox lives for as long as somebody uses it. (Violated: a Subscription has a bare pointer to its mailbox and uses it in its destructor.) For threads whose variables are all gone at the end, nothing goes wrong in any interleaving and for any placement of mailboxes in memory exactly if no thread dereferences a null pointer and every thread always has a MailBoxPtr to every mailbox to which it has a Subscription. Then a mailbox exists exactly while some variable points to it, no thread is inside a method of a destroyed mailbox, and at the end no mailbox is left.", "quantifier": "all numbers of threads and mailboxes, all programs of pointer and subscription assignments, moves, and method calls, all interleavings, all placements of mailboxes in memory (also at addresses used before)", "why_tests_cant": "whether the use after destruction happens depends on which thread lets go of its pointer last, and shows itself in no other way than memory corruption", "anchors": ["include/MailBox.hxx:makeMailBox", "include/MailBox.hxx:SubscriptionCl", "include/MailBox.hxx:MailBox::unsubscribe"]}
{"id": "C132", "title": "Printing into a stream prepared by the program", "statement": "Printing help or a property tree into a stream does what inserting its text as one string does, as os << format does. (Violated: a pending std::setw pads only the first thing that is inserted; for a scalar tree that is the empty indentation; an empty tree leaves the width pending.) It holds for a device without limit exactly if the pending width is not more than the length of what the text begins with, or the tree is nothing but its introducing line. Without a pending width a device that takes only so many characters gets exactly the beginning of the text; badbit is set exactly if something is missing; std::ios_base::failure is thrown exactly if something is missing and the program asked for exceptions with badbit, or with failbit when more than the last newline of a help text, or of a tree that has been read, is missing. In a stream with an error bit nothing is written. Options::parse changes the object in the same way whatever becomes of its messages, leaves std::cerr alone if the line is read to its end, and lets std::ios_base::failure escape exactly in those cases.", "quantifier": "all option objects, all trees, all formats, all stream states (width, fill, adjustment, error bits, exception masks), all device capacities, all command lines", "why_tests_cant": "the interesting streams (full devices, pending widths, exceptions) have too many combinations with texts to try; tests print into fresh string streams", "anchors": ["src/Options.cxx:Options::printHelp", "src/Options.cxx:Options::parse", "src/PropertyTree.cxx:PropertyTree::PropNode::dump", "src/Format.cxx:operator<<"]}
{"id": "C133", "title": "Mailboxes are linearisable", "statement": "A history of the beginnings and ends of calls of a mailbox by any number of threads can be seen (without undefined calls and throwing destructors) exactly if it is linearisable: the calls that have ended, and some of the others, can be put into an order in which they are possible one after the other with the answers seen, and in which no call stands before one that had ended when it began. The same holds for the calls of any number of mailboxes, each with its own mutex, seen together.", "quantifier": "all histories of calls and returns of any number of threads, one mailbox or all mailboxes together, all arguments, all schedules", "why_tests_cant": "all interleavings of the statements of all calls; both directions (nothing else can be seen, and everything linearisable can)", "anchors": ["include/MailBox.hxx:subscribe", "include/MailBox.hxx:get", "include/MailBox.hxx:put", "include/MailBox.hxx:readyCount", "include/MailBox.hxx:minReadyCount", "include/MailBox.hxx:clear", "include/MailBox.hxx:unsubscribe", "include/MailBox.hxx:subscriberCount"]}
{"id": "C134", "title": "Several mailboxes can be judged one by one", "statement": "What threads can see of the calls of several mailboxes (without undefined calls and throwing destructors) is exactly every history in which each thread makes one call after the other and the calls of each mailbox could be seen of this mailbox alone; so the calls can be put into a common linear order exactly if those of each mailbox can. A thread in a call can return after steps of its own and of the thread that holds the mutex of this mailbox.", "quantifier": "all histories of any number of threads and mailboxes, all schedules", "why_tests_cant": "all interleavings of any number of threads and mailboxes, and that no other histories exist", "anchors": ["include/MailBox.hxx:subscribe", "include/MailBox.hxx:get", "include/MailBox.hxx:put", "include/MailBox.hxx:readyCount", "include/MailBox.hxx:minReadyCount", "include/MailBox.hxx:clear", "include/MailBox.hxx:unsubscribe", "include/MailBox.hxx:subscriberCount"]}
{"id": "C135", "title": "Several mailboxes order memory", "statement": "With any number of mailboxes, each with its own mutex: any two accesses to the state of the same mailbox are ordered by happens-before. If get of a mailbox returns a message, everything the sender did before a put of this message at this mailbox happens before everything the receiver does afterwards; and if a message is sent to a second mailbox only by threads that have received another one from the first, this holds through both mailboxes. Threads that use different mailboxes are not ordered.", "quantifier": "all executions of any number of threads and mailboxes", "why_tests_cant": "all interleavings; missing synchronisation is invisible on most hardware", "anchors": ["include/MailBox.hxx:MailBox", "include/MailBox.hxx:put", "include/MailBox.hxx:get"]}
{"id": "C136", "title": "Barriers for no thread and for one", "statement": "A barrier made for 0 threads lets nobody through: as long as fewer than 2^32 calls have been counted and no deadline passes, no call of wait returns or throws. At a barrier made for 1 thread nobody ever sleeps, whoever calls it and however the calls overlap: no deadline passes, no call throws, and as long as a thread is in a call some thread can go on, so every call returns.", "quantifier": "all executions of any number of threads", "why_tests_cant": "that nobody ever returns, and that nobody ever sleeps, in all interleavings", "anchors": ["src/Barrier.cxx:wait", "src/Barrier.cxx:Barrier", "include/Barrier.hxx:Barrier"]}
{"id": "C137", "title": "Mailboxes and barriers together order memory", "statement": "In a program with any number of mailboxes and barriers, each barrier made for n threads and used by n (without timeouts): everything a thread did before its k-th wait at a barrier, also at mailboxes and other barriers, happens before everything any thread of this barrier does after its k-th wait there; a put of a message happens before the return of the get that gives it; accesses to the state of one mailbox are ordered, and so are conflicting accesses to the members of one barrier.", "quantifier": "all executions of any number of threads, mailboxes and barriers", "why_tests_cant": "all interleavings; missing synchronisation is invisible on most hardware", "anchors": ["include/MailBox.hxx:MailBox", "include/MailBox.hxx:put", "include/MailBox.hxx:get", "src/Barrier.cxx:wait"]}
{"id": "C138", "title": "How deep the calls of a property tree are nested", "statement": "Reading a document needs more than c nested calls exactly if c times one node of it is inside the other (a map as a value in a map, or an element of a sequence that is such a value), beginning at the top and before any mistake; printing a tree needs more than c exactly if there is a way of c steps down from its root through nodes that are not values; looking up a path needs more than c exactly if it begins with c pieces that are keys of the node itself. With enough calls the results are those without a limit. A tree that has been read with c nested calls, into one that could be printed with c, can be printed with c.", "quantifier": "all documents, also with aliases and mistakes, all trees, paths and limits", "why_tests_cant": "documents and trees of any depth", "anchors": ["src/PropertyTreeYAML.cxx:fillRecurse", "src/PropertyTree.cxx:dump", "src/PropertyTree.cxx:getPropRecursive"]}
{"id": "C139", "title": "What has been put before a barrier can be got after it", "statement": "In a program with any number of mailboxes and barriers, nobody ending the subscription, throwing its mail away or putting null pointers: a get for a subscription gives a message if at least as many calls of put to the mailbox (not passing over the subscription) began after subscribe had returned and returned before the get began, as gets for this subscription have been called until it returns. It is enough that the threads put before their k-th wait at a barrier and the get is called after the k-th wait of any one thread of it has returned. So if each of the n threads of a barrier puts a message before it waits, the first n gets after the barrier all give messages.", "quantifier": "all executions of any number of threads, mailboxes and barriers", "why_tests_cant": "all interleavings of the calls of all threads", "anchors": ["include/MailBox.hxx:put", "include/MailBox.hxx:get", "src/Barrier.cxx:wait", "test/MailBoxTest.cxx:objMailBoxTest"]}
{"id": "C140", "title": "Programs with mailboxes and barriers stand still only at barriers somebody has not come to", "statement": "In a program with any number of mailboxes and barriers, each barrier made for n threads and used by n (without timeouts): unless new calls are made, the program comes to a standstill however it is scheduled (apart from wake-ups without reason). When it stands still, nobody is in a call of a mailbox, and every thread that is in a call waits at a barrier to which some other thread of it has not come as often. If all threads come to their barriers in a common order, with any use of mailboxes between, no thread waits for ever while the others still make their calls: as long as a thread is in a call, some thread can proceed, or some thread that is in no call has not come to all its barriers yet. So if every thread makes finitely many calls, then whenever such a program can go no further, all calls have been made and have returned; and an execution without end makes new calls (or has wake-ups without reason) for ever.", "quantifier": "all executions of any number of threads, mailboxes and barriers", "why_tests_cant": "all interleavings; deadlocks depend on the schedule", "anchors": ["src/Barrier.cxx:wait", "include/MailBox.hxx:MailBox"]}
{"id": "C141", "title": "With fair scheduling programs with mailboxes and barriers complete", "statement": "In a program with any number of mailboxes and barriers (each barrier made for n threads and used by n, no timeouts), under every scheduling in which a thread that can proceed again and again does so at some time: every call on a mailbox returns, whatever the other threads do, also those that wait at barriers; if every thread of a barrier calls wait for the k-th time at some time, then the k-th call returns to each of them, whatever else they do in between; and if every thread makes finitely many calls, the next one some time after the last has returned, and all come to their barriers in a common order, then every thread makes all its calls and all return, also with wake-ups without reason for ever.", "quantifier": "all infinite fair executions of any number of threads, mailboxes and barriers, all such programs", "why_tests_cant": "liveness: executions without end, all fair schedules", "anchors": ["src/Barrier.cxx:wait", "include/MailBox.hxx:MailBox"]}
{"id": "C142", "title": "Which programs complete when nothing is promised about who gets a mutex", "statement": "C++ does not promise that a thread that waits for a std::mutex gets it. Even so, every program of finitely many threads that make finitely many calls on any mailboxes and barriers (each made for n threads and used by n, no timeouts, not woken up without reason for ever) and come to their barriers in a common order completes: if something happens as long as some thread can proceed, there is a time after which all calls have been made and have returned. Programs without end need more: if it is only promised that a thread that can proceed all the time does so, then while one thread calls a method of a mailbox again and again, another thread's call on the same mailbox may never return; and if threads may be woken up without reason for ever, a barrier to which all its threads have come may never be passed (with C141: it is passed, and every call on a mailbox returns, if whoever can get a mutex again and again gets it).", "quantifier": "all infinite executions of any number of mailboxes and barriers, all such programs", "why_tests_cant": "liveness under every scheduler; starvation is a property of executions without end", "anchors": ["src/Barrier.cxx:wait", "include/MailBox.hxx:MailBox"]}
{"id": "C143", "title": "Integers written by Format and read by Options", "statement": "What addI or addU write for an integer is read by an option of a type that can hold it as that integer. (Violated.) Without separators addI's text is read back exactly if there is no padding or it is white space, zeros before a number that is not negative, one plus sign before such a number, or one minus sign before 0. With a separator that is no digit it is read back exactly if no separator was needed. Hexadecimal texts are always read as 0; octal texts are read back exactly for numbers below 8; decimal texts of addU exactly if they have no separators (separators are put into the padding, too).", "quantifier": "all numbers, widths below 2^31, separators, fill characters, sizes of groups and integer types", "why_tests_cant": "all numbers and format parameters; the wrong values are accepted without a message", "anchors": ["src/Format.cxx:addI", "src/Format.cxx:addU", "src/Format.cxx:toHex", "src/Format.cxx:toOct", "include/Options.hxx:setValBase"]}
{"id": "C144", "title": "Numbers of a YAML document read with PropNode::get", "statement": "A number written as YAML 1.2 (core schema) writes numbers is read by get<T>, for every type that can hold it, as that number. (Violated.) An integer is read as itself exactly if it is written in decimal or is 0: octal (0o17) and hexadecimal (0x1F) numbers are read as 0 by every numeric type, without an error. Numbers with point or exponent are read by double and float as the nearest value and refused if there is none; an integer type takes the digits before the point or exponent (1.5e3 gives 1; without exponent this is the number without its fraction) and refuses numbers that begin with the point. The words for infinity, not-a-number, null, true and false are refused by every numeric type.", "quantifier": "all nodes, numbers, integer sizes, spellings", "why_tests_cant": "all spellings; the wrong values come without an error", "anchors": ["include/PropertyTree.hxx:PropNode::get", "src/PropertyTreeYAML.cxx:fillRecurse"]}
{"id": "C145", "title": "Property values do not depend on the global locale", "statement": "PropNode::get<T> gives the same result whatever global locale the program has set. (Violated.) It holds for values without the locale's separator and (double, float) without points if the locale has another one; so for all integers in decimal, for numbers without a point, and for all numbers in locales whose point is '.'. In a locale with another point that does not separate digits by '.', only the digits before the point count: the fraction and the exponent are dropped without an error. In a locale that separates digits by '.', a number with a point is refused, except when the digits after and before the point look like groups; it is then read as if the point were not there (144.200 as 144200), by integer types, too.", "quantifier": "all locales, nodes, values, roundings", "why_tests_cant": "all locales and values; the tests run in the \"C\" locale only", "anchors": ["include/PropertyTree.hxx:PropNode::get"]}
{"id": "C146", "title": "A failing get keeps the default", "statement": "PropNode::get<T>(v) that returns false or throws leaves v as it was, so v may hold a default. (Violated: v becomes 0 if the value is no number, the nearest number of the type if the number is out of range, for bool true or false; it is kept only if the value is blank, or for std::string and char.) The outcome itself does not depend on v. PropertyTree::get<T>(v, path) with an integer type never succeeds: it throws PropertyNotFound and keeps v, or fails and sets v to 0.", "quantifier": "all nodes, values, types, previous contents of v, paths", "why_tests_cant": "all values, types and previous contents; the tests do not call get<T>", "anchors": ["include/PropertyTree.hxx:PropNode::get", "include/PropertyTree.hxx:PropertyTree::get"]}
{"id": "C147", "title": "Numbers read into one-byte integers", "statement": "A decimal integer between 0 and 127 is read into int8_t or uint8_t (PropNode::get<T>, options of that type) as itself. (Violated: these are character types, so the code of the first character is stored, 48 plus the first digit, 43 or 45 for a sign, and no error is reported. Of all integers in decimal, exactly 53, 48 with a zero in front, and 43 with a plus sign are read as themselves.)", "quantifier": "all nodes, decimal texts, ready Options objects", "why_tests_cant": "all decimal texts", "anchors": ["include/PropertyTree.hxx:PropNode::get", "include/Options.hxx:setValBase"]}
