{"id": "C01", "title": "Chunk equality is slot-content equality", "statement": "Two chunks without variables and negations compare equal (==) exactly when they have the same list of non-empty slot/value pairs (an empty, None or 'None' slot counts as absent), no matter what their type names are, in which order slots were written, or how many empty slots their types add. == is reflexive, symmetric and transitive, and equal chunks always hash equally, so they are the same key in declarative memory.", "quantifier": "every pair/triple of chunks with any number of slots and any nesting of chunks in chunks; the 'only if' direction for every collision-free hash", "why_tests_cant": "The space of slot contents and nestings is infinite; a test compares a handful of pairs and can never show that a hash-based == has no false negatives or that it is an equivalence.", "anchors": ["pyactr/chunks.py: Chunk.__eq__, Chunk.__hash__, Chunk.removeempty, Chunk.EmptyValue", "pyactr/utilities.py: splitting"]}
{"id": "C02", "title": "Matching a variable-free pattern is exactly its declarative meaning", "statement": "For a pattern chunk without variables, `pattern <= chunk` is True exactly when, for every slot of the pattern, a required value equals the value of that slot in the chunk, and no forbidden value (~v) equals it; slots the pattern leaves empty impose nothing; a slot the chunk's type does not have behaves as Python None.", "quantifier": "every pattern and every chunk, any number of slots, any number of negated values per slot", "why_tests_cant": "Tests check individual pattern/chunk pairs; the equivalence between the imperative matcher (with its early exits and its hash-equality shortcut) and the declarative reading ranges over all pairs.", "anchors": ["pyactr/chunks.py: Chunk.__le__, Chunk.match"]}
{"id": "C03", "title": "A successful match binds every variable of the pattern consistently", "statement": "If `pattern <= chunk` is True then afterwards every variable =x in the pattern is bound, bound to the value of each slot in which it occurs, previously existing bindings are unchanged, and no ~=x constraint is violated by the binding of x; conversely if some extension of the given bindings satisfies all constraints, the match succeeds.", "quantifier": "every pattern (any mixture of values, variables, negated values and variables), chunk and initial bindings", "why_tests_cant": "Bindings made in one slot constrain all other slots in both directions (=x before ~=x and after); the number of interactions is unbounded.", "anchors": ["pyactr/chunks.py: Chunk.match, Chunk.__le__, Chunk.__hash__ (boundvars)"]}
{"id": "C04", "title": "Matching does not depend on slot order", "statement": "Whether a pattern matches, and which value each variable is bound to, does not depend on the order in which the pattern's slots are visited.", "quantifier": "every permutation of the slots of every pattern, every chunk, all initial bindings", "why_tests_cant": "The matcher threads mutable bindings through the slots left to right; independence of the order must hold for all n! orders of all patterns.", "anchors": ["pyactr/chunks.py: Chunk.match"]}
{"id": "C05", "title": "The chunk type of a pattern is irrelevant for matching and equality", "statement": "`isa` in a rule or request only names slots: ==, <= and retrieval never look at the type name, so changing only type names never changes the outcome of a comparison.", "quantifier": "all chunks, all type names", "why_tests_cant": "A test can show two types that happen not to be distinguished, not that no code path ever distinguishes types.", "anchors": ["pyactr/chunks.py: Chunk.__eq__, Chunk.__hash__, Chunk.match"]}
{"id": "C06", "title": "Part-of is a preorder on fully specified chunks", "statement": "On chunks whose slots hold plain values (no variables, no negations, no explicit None) <= is reflexive and transitive, and mutual <= implies ==; < is its strict part.", "quantifier": "all triples of such chunks", "why_tests_cant": "Order laws quantify over all triples; explicit None breaks transitivity and only a proof shows exactly where the law holds.", "anchors": ["pyactr/chunks.py: Chunk.__le__, Chunk.__lt__, Chunk.match"]}
{"id": "C07", "title": "Partial matching scores are sums of similarities, never rejections", "statement": "With partial matching, match returns 0 when the exact match succeeds, and otherwise the sum, over all violated constraints, of the similarity of the two values (default -mismatch_penalty); with non-positive similarities and non-negative penalty the score is never positive and each additional violated constraint never raises it.", "quantifier": "all patterns, chunks, similarity tables and penalties", "why_tests_cant": "The score accumulates over arbitrarily many slots and four kinds of constraints.", "anchors": ["pyactr/chunks.py: Chunk.match", "pyactr/utilities.py: get_similarity"]}
{"id": "C08", "title": "Similarities are symmetric and last-write-wins", "statement": "After any sequence of set_similarities calls, the similarity of (a,b) equals that of (b,a), equals the value of the last accepted call mentioning the pair in either order, and is -mismatch_penalty when there was none; positive values are rejected and change nothing.", "quantifier": "every history of set_similarities calls with arbitrary chunks or values", "why_tests_cant": "It is a statement about all histories of updates in any order.", "anchors": ["pyactr/model.py: ACTRModel.set_similarities", "pyactr/utilities.py: get_similarity"]}
{"id": "C09", "title": "Creating a chunk never loses or invents slot content", "statement": "A created chunk has exactly the slots of its type together with the slots given; each given slot holds the given value, all others are empty; the slots are in the canonical (sorted) order; the type is extended by unknown slots and no other type is touched.", "quantifier": "every registry of chunk types, type name and slot dictionary", "why_tests_cant": "The registry is global mutable state shared by all models; the claim covers every history of previous definitions and extensions.", "anchors": ["pyactr/chunks.py: Chunk.__init__, chunktype"]}
{"id": "C10", "title": "Chunk-type inheritance gives the union of slots", "statement": "chunktype(name, fields, include=parents) defines a type whose slots are exactly the given ones plus those of all parents, sorted, without duplicates; an unknown parent raises and leaves the registry unchanged; special types cannot be redefined; a slot named isa is rejected.", "quantifier": "all registries, any number of fields and parents", "why_tests_cant": "Any number of parents with overlapping slots; the loop recomputes the union for each parent.", "anchors": ["pyactr/chunks.py: chunktype"]}
{"id": "C11", "title": "The slot-value mini-language parses what was written", "statement": "A slot string made of at most one !value, at most one =variable and any number of ~!values and ~=variables, in any order, is split into exactly those parts; a string without special characters is one value; two different values or two different variables in a slot raise ACTRError.", "quantifier": "all strings over all names without special characters, any number and order of parts", "why_tests_cant": "The parser is four overlapping regular expressions with look-behind; the round trip ranges over all strings.", "anchors": ["pyactr/utilities.py: stringsplitting", "pyactr/chunks.py: Chunk.__init__, makechunk"]}
{"id": "C12", "title": "chunkstring slot descriptions are accumulated faithfully", "statement": "Turning parsed slot/value pairs into a chunk collects, per slot, all values, variables and negations mentioned for it (repeated slots accumulate), resolves a plain value naming an existing chunk to that chunk, uses isa for the type, and raises ACTRError exactly when a slot gets two different values or two different variables.", "quantifier": "every list of parsed slot/value pairs and every table of named chunks", "why_tests_cant": "Any number of repeated slots in any order.", "anchors": ["pyactr/chunks.py: createchunkdict, makechunk, chunkstring"]}
{"id": "C13", "title": "Right-hand-side values are fully resolved or rejected", "statement": "Resolving a slot of a right-hand side with the bindings of the fired rule yields the bound value of its variable (or its literal value), never contains an unresolved variable, and fails with ACTRError when a variable is unbound, when a negation is used where it is not allowed, or when the slot would carry two different values; it never fails in any other way.", "quantifier": "every slot description and every binding environment", "why_tests_cant": "Four fields interact in a loop with a variable carried over between iterations; the failure modes are spread over all combinations.", "anchors": ["pyactr/utilities.py: check_bound_vars"]}
{"id": "C14", "title": "Relative visual conditions may use variables", "statement": "A visual-location request whose slot is `>=x` or `<=x` with x bound to a number is turned into the same search as `>n` / `<n`.", "quantifier": "all bindings of x", "why_tests_cant": "The code path concatenates strings inside a loop; that it works for some binding does not show it for all - here it fails for all.", "anchors": ["pyactr/utilities.py: check_bound_vars", "pyactr/chunks.py: createchunkdict", "pyactr/vision.py: VisualLocation.find"]}
{"id": "C15", "title": "A buffer never holds more than one chunk", "statement": "After any sequence of add, clear, modify, discard, create or harvesting operations, successful or failing, on any kind of buffer, the buffer holds at most one chunk.", "quantifier": "every finite history of buffer operations with arbitrary arguments, including operations that raise", "why_tests_cant": "It is an invariant over all histories, including exception paths.", "anchors": ["pyactr/buffers.py: Buffer", "pyactr/declarative.py: DecMemBuffer", "pyactr/goals.py: Goal", "pyactr/vision.py: Visual, VisualLocation"]}
{"id": "C16", "title": "Modify changes exactly the mentioned slots", "statement": "A successful modification of a buffer chunk sets every slot mentioned in the modification to its resolved value, keeps every other slot, and gives the chunk the modifier's type; a modification that fails with an error leaves the buffer as it was.", "quantifier": "every buffer chunk, modification and binding environment", "why_tests_cant": "Quantifies over all chunks and all failing resolutions; the error path is where state gets lost.", "anchors": ["pyactr/buffers.py: Buffer.modify"]}
{"id": "C17", "title": "Harvesting conserves chunks", "statement": "Whenever the retrieval buffer or a visual buffer is cleared or overwritten, or a goal is cleared, the chunk it held is in declarative memory afterwards with exactly one additional trace, stamped with the (rounded) time of the operation; nothing else in memory changes; and no chunk ever disappears without being harvested.", "quantifier": "every buffer state, memory and time; every history of operations", "why_tests_cant": "Conservation over all histories; a single lossy operation breaks it.", "anchors": ["pyactr/declarative.py: DecMemBuffer.add, DecMemBuffer.clear", "pyactr/goals.py: Goal.add, Goal.clear, Goal.create", "pyactr/vision.py: Visual.add, Visual.clear", "pyactr/productions.py: ProductionRules.overwrite, retrieveorset, clear"]}
{"id": "C18", "title": "Declarative memory is the log of what was added", "statement": "After any sequence of additions, memory contains exactly the added chunks (up to ==), in order of first addition, each with the list of its (rounded) times in order of addition.", "quantifier": "every finite history of DecMem.add / item assignment calls", "why_tests_cant": "Refinement of a mutable mapping to a log, for all histories.", "anchors": ["pyactr/declarative.py: DecMem.add, DecMem.__setitem__, DecMem.__init__"]}
{"id": "C19", "title": "A declarative memory can be built from any collection of chunks", "statement": "DecMem(chunks) for an iterable of chunks stores every chunk once with time 0; DecMem(mapping) stores every chunk with its times.", "quantifier": "all collections of chunks, of any number and with any number of slots", "why_tests_cant": "The constructor first tries to unpack every chunk as a pair; whether that fails depends on the number of slots, so tests with 1- or 3-slot chunks miss it.", "anchors": ["pyactr/declarative.py: DecMem.__init__"]}
{"id": "C20", "title": "Association counts stay in step with memory", "statement": "For every value, once its fan has been computed, the cached number equals one plus the number of slots in memory holding that value, after any further sequence of additions to memory and look-ups.", "quantifier": "every history interleaving additions and look-ups (and deletions)", "why_tests_cant": "Cache coherence is a property of all interleavings.", "anchors": ["pyactr/declarative.py: DecMem.__setitem__, DecMem.__delitem__", "pyactr/utilities.py: calculate_strength_association"]}
{"id": "C21", "title": "Symbolic retrieval returns a matching chunk whenever there is one", "statement": "Without subsymbolic computation, a retrieval returns a chunk of memory that matches the request, was not first stored at the current instant and passes the recency filter; it fails exactly when there is none; among several it returns the most recently first-added one.", "quantifier": "all memories, requests, bindings, times and recency settings", "why_tests_cant": "Soundness and completeness over all memories.", "anchors": ["pyactr/declarative.py: DecMemBuffer.retrieve"]}
{"id": "C22", "title": "Subsymbolic retrieval returns the most active chunk above threshold", "statement": "With subsymbolic computation the retrieved chunk matches the request (unless partial matching is on), its activation is at least the threshold and maximal among all candidate chunks, the latency is F*exp(-f*A) of that activation, and on failure no candidate reaches the threshold and the latency is F*exp(-f*threshold).", "quantifier": "all memories, activations (including noise draws), thresholds and parameters", "why_tests_cant": "argmax over unbounded candidate sets and all noise draws.", "anchors": ["pyactr/declarative.py: DecMemBuffer.retrieve", "pyactr/utilities.py: retrieval_success, retrieval_latency"]}
{"id": "C23", "title": "Declarative finsts remember the last retrievals", "statement": "With finst n > 0, after any sequence of retrievals the set of recently retrieved items consists of the results of the last n retrievals; a request with recently_retrieved False never returns one of the last n retrieved chunks, and with recently_retrieved True returns only such a chunk.", "quantifier": "all histories of retrievals, all n", "why_tests_cant": "Sliding-window invariant over all histories.", "anchors": ["pyactr/declarative.py: DecMemBuffer.retrieve, finst"]}
{"id": "C24", "title": "Base-level activation follows the power law of practice and forgetting", "statement": "The base-level activation of a chunk is ln of the sum of t^-d over its past traces; adding a trace strictly increases it, waiting strictly decreases it, and a more recent trace counts more.", "quantifier": "all trace lists, times and decays 0<d<1", "why_tests_cant": "Real-valued monotonicity laws over unbounded lists.", "anchors": ["pyactr/utilities.py: baselevel_learning"]}
{"id": "C25", "title": "Base-level learning handles traces created at the current instant", "statement": "A trace stored exactly at the time of the retrieval does not count and never crashes the retrieval: the chunk is skipped if it has no other trace, and otherwise its activation is that of its remaining traces - with plain and with optimized learning.", "quantifier": "all trace lists and times", "why_tests_cant": "Needs coincidences in time that tests do not produce.", "anchors": ["pyactr/utilities.py: baselevel_learning", "pyactr/declarative.py: DecMemBuffer.retrieve"]}
{"id": "C26", "title": "Higher activation means faster retrieval", "statement": "Retrieval latency is positive and strictly decreasing in activation, and a successful retrieval is never slower than a failed one with the same parameters.", "quantifier": "all activations and all positive latency factors/exponents", "why_tests_cant": "Real-valued monotonicity.", "anchors": ["pyactr/utilities.py: retrieval_latency, retrieval_success", "pyactr/declarative.py: DecMemBuffer.retrieve"]}
{"id": "C27", "title": "Spreading activation comes only from associated slot values, with the buffer weight shared equally", "statement": "The spreading activation of a chunk is the sum over source buffers of W/n times the strengths of its n source values; a source value not occurring in the chunk (and not equal to it) contributes 0, one that occurs contributes S - ln(fan/occurrences); empty buffers contribute nothing.", "quantifier": "all chunks, buffers, memories and weights", "why_tests_cant": "Closed formula versus nested loops with caches.", "anchors": ["pyactr/utilities.py: spreading_activation, weigh_buffer, find_chunks, calculate_strength_association"]}
{"id": "C28", "title": "A rule matches exactly when all its conditions hold", "statement": "The left-hand side of a rule succeeds exactly when every buffer test is satisfied by the chunk in that buffer and every query holds, with one consistent binding of the variables across all buffers; testing a rule changes no buffer.", "quantifier": "all rules, buffer contents and states", "why_tests_cant": "Any number of conditions sharing variables across buffers.", "anchors": ["pyactr/productions.py: ProductionRules.LHStest, test, query"]}
{"id": "C29", "title": "The rule with the highest utility among the matching ones is selected", "statement": "Conflict resolution selects a matching rule if there is one, and no matching rule has a higher (noisy) utility than the selected one.", "quantifier": "all rule sets, utilities, noise draws and histories of utility updates", "why_tests_cant": "argmax over unbounded rule sets, with an ordering fixed before learning changes the utilities.", "anchors": ["pyactr/productions.py: ProductionRules.__init__, procedural_process"]}
{"id": "C30", "title": "A selected rule fires after rule_firing and only if it still matches", "statement": "Every rule selection at time t is followed by exactly one of RULE FIRED / RULE STOPPED FROM FIRING at time t + rule_firing, firing exactly when the left-hand side holds then, using the variable bindings of that moment; if nothing matches NO RULE FOUND is reported at t.", "quantifier": "all rule sets and all changes of buffers between selection and firing", "why_tests_cant": "Buffers are changed concurrently by other modules between selection and firing.", "anchors": ["pyactr/productions.py: ProductionRules.procedural_process"]}
{"id": "C31", "title": "Right-hand-side actions run in a fixed order", "statement": "The actions of a fired rule are performed in the order: extra tests and commands, modifications, overwrites, modification requests, requests, clearings - however the rule was written; every action is performed exactly once.", "quantifier": "all right-hand sides with any number of actions in any written order", "why_tests_cant": "All permutations of all right-hand sides.", "anchors": ["pyactr/productions.py: ProductionRules.update"]}
{"id": "C32", "title": "Strict harvesting clears exactly the tested and otherwise unused buffers", "statement": "With strict harvesting a buffer is cleared after firing exactly when the rule tested it on the left-hand side and does not mention it on the right-hand side; without strict harvesting none is.", "quantifier": "all rules and buffer sets", "why_tests_cant": "Set equality over all rules; variable names and buffer names share one namespace.", "anchors": ["pyactr/productions.py: ProductionRules.update, test"]}
{"id": "C33", "title": "Utility learning moves utilities of used rules towards the delayed reward", "statement": "When a rewarded rule fires, each rule fired since the last reward is updated once per firing by U := U + alpha*(R - delay - U) (rounded to 4 decimals), no other rule changes, and afterwards the record of fired rules is empty; with 0 <= alpha <= 1 the distance to R - delay shrinks by the factor 1 - alpha per update, up to rounding.", "quantifier": "all histories of rule firings and rewards", "why_tests_cant": "Statement over all firing histories with rounding error.", "anchors": ["pyactr/utilities.py: modify_utilities", "pyactr/productions.py: ProductionRules.procedural_process"]}
{"id": "C34", "title": "Every legal key takes its documented motor time", "statement": "A key press produces COMMAND, PREPARATION COMPLETE, INITIATION COMPLETE, KEY PRESSED, MOVEMENT FINISHED in this order at the documented distances; preparation is 0 for a repeated key, 100 ms shorter for a key of the same hand and style, 50 ms shorter for a key of the other hand with the same style, and never negative.", "quantifier": "all pairs of successive keys", "why_tests_cant": "All pairs of keys in all orders; the dead branch is invisible for same-hand sequences.", "anchors": ["pyactr/motor.py: Motor", "pyactr/productions.py: ProductionRules.motorset, motorcontinue"]}
{"id": "C35", "title": "Two hand movements never overlap", "statement": "Whatever the times at which key presses are requested, a movement starts only when the previous one has finished.", "quantifier": "all sequences of requests at arbitrary times", "why_tests_cant": "Three overlapping requests are needed to see a violation.", "anchors": ["pyactr/productions.py: ProductionRules.motorcontinue", "pyactr/motor.py: Motor.last_key"]}
{"id": "C36", "title": "Motor requests are validated", "statement": "A manual request is accepted exactly when its command is press_key and its key, in upper case, is on the keyboard; everything else raises ACTRError.", "quantifier": "all requests", "why_tests_cant": "All command/key combinations including missing ones.", "anchors": ["pyactr/motor.py: Motor.create"]}
{"id": "C37", "title": "The environment shows stimuli one after another at the cumulated times", "statement": "Stimulus i is shown from start + t_0+...+t_(i-1) until start + t_0+...+t_i, with its own trigger; single stimuli, triggers or times are repeated to the common length and other length mismatches are rejected.", "quantifier": "all lists of stimuli, triggers and times", "why_tests_cant": "All lengths and broadcasting combinations.", "anchors": ["pyactr/environment.py: Environment.environment_process"]}
{"id": "C38", "title": "start_time is the starting point of the first stimulus", "statement": "environment_process(start_time=s) starts the environment s seconds after the simulation's initial time.", "quantifier": "all s and initial times", "why_tests_cant": "All tests use 0.", "anchors": ["pyactr/environment.py: Environment.environment_process"]}
{"id": "C39", "title": "Visual search finds an object satisfying the request whenever there is one", "statement": "The location found satisfies the value, position, relative-position and attendedness conditions of the request, a search fails only if no object on the screen satisfies them, and for lowest/highest/closest no other satisfying object is better; the object reported as attended is the one found.", "quantifier": "all screens and requests", "why_tests_cant": "All screens with any number of objects in any order.", "anchors": ["pyactr/vision.py: VisualLocation.find"]}
{"id": "C40", "title": "Automatic visual search picks the closest unattended object", "statement": "Automatic search returns the object closest to the focus among those not recently attended, nothing if there is none, and the number of remembered objects never exceeds finst.", "quantifier": "all screens, foci and histories", "why_tests_cant": "All screens and all histories of attended objects.", "anchors": ["pyactr/vision.py: VisualLocation.automatic_search, add, modify"]}
{"id": "C41", "title": "A visual shift reports its events in temporal order and encodes exactly once", "statement": "For all encoding, preparation and execution times a visual shift produces events with non-decreasing times, encodes the object exactly once at the encoding time, and moves the eye exactly once.", "quantifier": "all non-negative encoding/preparation/execution times", "why_tests_cant": "Three regimes selected by real-valued comparisons.", "anchors": ["pyactr/productions.py: ProductionRules.visualshift, visualcontinue, visualencode", "pyactr/vision.py: Visual.shift"]}
{"id": "C42", "title": "Simulated time never runs backwards and events are reported at their time", "statement": "In every run the reported events have non-decreasing times, each event is reported when the clock shows its time, and all times are multiples of 0.1 ms.", "quantifier": "all models, all schedules of processes, all interruptions", "why_tests_cant": "All interleavings of concurrently scheduled processes.", "anchors": ["pyactr/simulation.py: Simulation.__localprocess__, __printevent__", "pyactr/utilities.py: roundtime"]}
{"id": "C43", "title": "The procedural module cycles through conflict resolution, selection and firing", "statement": "The PROCEDURAL events of every run form a sequence of complete cycles: CONFLICT RESOLUTION, then NO RULE FOUND or RULE SELECTED followed by RULE FIRED or RULE STOPPED FROM FIRING; never are two rules in progress at the same time.", "quantifier": "all runs", "why_tests_cant": "All schedules of an unbounded simulation.", "anchors": ["pyactr/productions.py: ProductionRules.procedural_process", "pyactr/simulation.py: Simulation.__procprocessGenerator__"]}
{"id": "C44", "title": "A module is free again when its request has been processed", "statement": "After an uninterrupted request to a buffer has been carried out to its end, the buffer's state is free, or error exactly when nothing was found; busy states never outlast the processing.", "quantifier": "all requests to all buffers", "why_tests_cant": "All module processes and outcomes.", "anchors": ["pyactr/productions.py: ProductionRules.retrieve, retrieveorset, modify, overwrite, clear, execute, extra_test, visualencode, visualcontinue, motorcontinue, automatic_search, automatic_buffering"]}
{"id": "C45", "title": "A new request to a busy module pre-empts the old one", "statement": "If a rule makes a request to a module that is still working on an earlier request, the earlier request is abandoned and has no further effect on the buffer; the newest request is carried out.", "quantifier": "all times of requests and all schedules", "why_tests_cant": "Interleavings of two processes and the scheduler.", "anchors": ["pyactr/simulation.py: Simulation.__extraprocessGenerator__, __procprocessGenerator__, __localprocess__"]}
{"id": "C46", "title": "run(max_time) runs the simulation for max_time seconds", "statement": "Calling run(t) advances the clock by at most t seconds from wherever it was and can be called repeatedly.", "quantifier": "all initial times and all sequences of run calls", "why_tests_cant": "Tests call run once from time 0.", "anchors": ["pyactr/simulation.py: Simulation.run"]}
{"id": "C47", "title": "Key presses never crash the environment", "statement": "Any number of key presses matching the current trigger, at any time, advances the environment or is ignored, but never raises.", "quantifier": "all sequences of key presses and environment events", "why_tests_cant": "Needs two presses after the last stimulus.", "anchors": ["pyactr/simulation.py: Simulation.__localprocess__, __envGenerator__"]}
{"id": "C48", "title": "Compilation adds rules but never changes existing ones", "statement": "Compiling two rules either is blocked or yields a rule stored under a new name or identical to the rule already stored under that name; no other rule is added, removed or altered, and recompiling the same rules does not add another rule.", "quantifier": "all rule sets and all pairs of rules", "why_tests_cant": "All histories of compilations with name collisions.", "anchors": ["pyactr/productions.py: Productions.compile_rules"]}
{"id": "C49", "title": "Compilation keeps the variables of the two rules apart", "statement": "Before merging, every variable of the second rule is renamed to a name carrying the rule's name, injectively, and a clash with a variable in use raises ACTRError.", "quantifier": "all rules and variable sets", "why_tests_cant": "All variable names, including ones that already contain the renaming infix.", "anchors": ["pyactr/utilities.py: make_chunkparts_without_varconflicts, make_chunkparts_with_new_vars, match", "pyactr/productions.py: Productions.__rename__, __substitute__"]}
{"id": "C50", "title": "Unsafe compilations are blocked", "statement": "Two rules are not compiled when both make a request to the same non-retrieval buffer, when the second queries a motor or visual buffer requested by the first for anything but busy, when it tests a visual buffer requested by the first, or when it queries the requested retrieval for an error.", "quantifier": "all pairs of rules and buffer sets", "why_tests_cant": "All combinations of conditions and actions.", "anchors": ["pyactr/productions.py: Productions.__check_valid_compilation__"]}
{"id": "C51", "title": "A model always has exactly one default declarative memory", "statement": "After any sequence of set_decmem calls model.decmem is the memory set last and does not raise, and a new simulation gives this memory to all buffers.", "quantifier": "all histories of set_decmem / set_goal / set_retrieval calls", "why_tests_cant": "All histories.", "anchors": ["pyactr/model.py: ACTRModel.set_decmem, decmem, simulation"]}
{"id": "C52", "title": "Unknown model parameters are rejected", "statement": "Creating a model with a parameter that is not in the documented list raises ACTRError; otherwise every given parameter has its given value and all others their defaults.", "quantifier": "all parameter dictionaries", "why_tests_cant": "All key sets.", "anchors": ["pyactr/model.py: ACTRModel.__init__"]}
{"id": "C53", "title": "A module process works for one buffer only", "statement": "From its start to its end, including exceptions and resumptions after other processes ran, a process of a module (request, modification request, clearing, automatic search or buffering, continuation of a shift or key press) changes no buffer but its own, and neither rules, utilities, recorded uses, bindings nor the list of processes.", "quantifier": "all processes, states, schedules and interferences", "why_tests_cant": "All interleavings and all buffers not mentioned by the process.", "anchors": ["pyactr/productions.py: ProductionRules.retrieveorset, modify_request, clear, automatic_search, automatic_buffering, visualcontinue, motorcontinue"]}
{"id": "C54", "title": "Rules and chunks are read from strings as they are written", "statement": "productionstring stores, for a string in the documented form (tests or queries, ==>, actions; slots and values separated by any white space), exactly the tests and actions written, in their order, with exactly their slots and values; it accepts no string that is not of this form up to missing white space, but raises ACTRError and leaves the rules unchanged. The same holds for the slots and values of chunkstring.", "quantifier": "all strings without tabs inside quotes (and, for what is refused, without tabs), all names and rule sets", "why_tests_cant": "Infinitely many texts, white space, values and nestings; the parser does not backtrack, so that whether a part is read depends on everything after it.", "anchors": ["pyactr/utilities.py: getchunk, getrule", "pyactr/model.py: ACTRModel.productionstring", "pyactr/chunks.py: chunkstring"]}
{"id": "C55", "title": "A rule read from a string does everything that is written", "statement": "The dictionaries yielded by a rule made by productionstring have for every test, query and action written in the string an entry under its sign and buffer which means what is written (a chunk with the slots and type described, the queries, the commands, or nothing for a clearing), and no other entries; also when the rule is used again.", "quantifier": "all rules that are read, all tables of named chunks and types", "why_tests_cant": "Any number of tests and actions in any combination, evaluated in any state of the global tables.", "anchors": ["pyactr/model.py: ACTRModel.productionstring", "pyactr/chunks.py: createchunkdict, makechunk"]}
{"id": "C56", "title": "Every rule gets a name", "statement": "productionstring stores a rule under the given name, or under a new name if none is given, replaces a rule of the same name and changes no other rule.", "quantifier": "all rules in the documented form, all names and rule sets", "why_tests_cant": "All rule sets and names.", "anchors": ["pyactr/model.py: ACTRModel.productionstring", "pyactr/productions.py: Productions._undefinedrulecounter"]}
{"id": "C57", "title": "Stepping goes from event to event", "statement": "A call of step() that returns ends right after exactly one more event has been reported; this event is current_event and show_time() is its time. steps(n) reports n events. If another event is going to be reported step() returns, otherwise it raises EmptySchedule.", "quantifier": "all models and environments, all sequences of calls of run, step and steps", "why_tests_cant": "All models and all sequences of calls; tests step through single models.", "anchors": ["pyactr/simulation.py: Simulation.step", "pyactr/simulation.py: Simulation.steps", "pyactr/simulation.py: Simulation.show_time"]}
{"id": "C58", "title": "Attention and eye movements take the time EMMA predicts", "statement": "With EMMA and without noise, shifting attention to an object takes K * vis_delay * e^(k * d) seconds for encoding, 0.135 seconds to prepare and 0.07 + 0.002 * d seconds to execute the movement of the eye, where d is the distance of the object from the focus in degrees of visual angle, and the eye lands on the object. Farther objects take longer; the visual angle is the one under which the distance is seen on the screen; with noise no time is negative.", "quantifier": "all screens, positions, parameters, delays and random numbers", "why_tests_cant": "Real-valued formulas over all positions and parameters.", "anchors": ["pyactr/utilities.py: calculate_visual_angle, calculate_distance, calculate_delay_visual_attention, calculate_preparation_time, calculate_execution_time, calculate_landing_site", "pyactr/vision.py: Visual.shift, Visual.automatic_buffering"]}
{"id": "C59", "title": "Automatic buffering attends to the fovea", "statement": "What automatic buffering puts into the visual buffer is the text of an object on the screen that is seen under less than one degree of visual angle from the focus; and if there is such an object whose text is not in the buffer yet, then something is buffered.", "quantifier": "all screens, objects, buffers and declarative memories", "why_tests_cant": "All positions of objects on all screens.", "anchors": ["pyactr/productions.py: ProductionRules.automatic_buffering", "pyactr/vision.py: Visual.automatic_buffering"]}
{"id": "C60", "title": "Announced events are reported in time", "statement": "When a module, the procedural system or the environment has announced an event for some time, then that time does not lie in the past, and however the simulation goes on, by the time the clock has gone past it (or nothing is left to happen) the event has been reported, exactly with the announced time, unless the process that announced it was interrupted; and reports are never withdrawn.", "quantifier": "all models, environments, reachable states of simulations and continuations (steps, further calls of run, exceptions in other processes)", "why_tests_cant": "It is a statement about every continuation of every reachable state, with any number of processes waiting at the same time.", "anchors": ["pyactr/simulation.py: Simulation.__localprocess__", "pyactr/simulation.py: Simulation.__envprocess__", "pyactr/simulation.py: Simulation.__printevent__"]}
{"id": "C61", "title": "Rules react to what modules report", "statement": "When a module or the environment reports something at some time, then by the time the clock goes on (or nothing is left to happen) rules have been tried at that time, or a rule that was selected before is still under way; and when a simulation has come to its end, no rule matches any more.", "quantifier": "all models, environments and states of simulations in which no exception was raised, in particular all interleavings of processes at the same time", "why_tests_cant": "Whether an activation of the procedural system is lost depends on the order in which processes with the same time are scheduled; tests see one interleaving each.", "anchors": ["pyactr/simulation.py: Simulation.__procprocessGenerator__", "pyactr/simulation.py: Simulation.__activate__", "pyactr/simulation.py: Simulation.__localprocess__", "pyactr/productions.py: ProductionRules.procedural_process"]}
{"id": "C62", "title": "Exceptions are never lost", "statement": "When a process of the simulation (the rules, the handling of a request, the automatic search of a module, the environment) ends with an exception, this exception is raised out of the simulation before the clock goes on: until it has been raised, the time stays the same, something is left to happen, and the call of run that is going on ends at that time.", "quantifier": "all models, environments, reachable states, processes and continuations, with further calls of run and with other exceptions raised in between", "why_tests_cant": "An exception passes through several processes waiting for each other, and simpy swallows failures that another process has taken over; whether one gets lost depends on who waits for whom at that moment, which tests see for a few models only.", "anchors": ["pyactr/simulation.py: Simulation.run", "pyactr/simulation.py: Simulation.__localprocess__", "pyactr/simulation.py: Simulation.__extraprocessGenerator__", "pyactr/simulation.py: Simulation.__procprocessGenerator__"]}
{"id": "C63", "title": "Pre-empting a module stays internal", "statement": "When a module gets a new request while it works on another one, pyactr interrupts processes with simpy.Interrupt. This exception is never raised out of run or step: an interrupted module goes on at once with the first request that waits for it, and the interrupted process of the old request ends without an exception.", "quantifier": "all models with distinct names of buffers, all environments, reachable states and processes that are interrupted", "why_tests_cant": "Whether an interruption arrives while the module is inside the try statement depends on which processes act at the same moment and in which order; tests see few of these orders.", "anchors": ["pyactr/simulation.py: Simulation.__extraprocessGenerator__", "pyactr/simulation.py: Simulation.__procprocessGenerator__", "pyactr/simulation.py: Simulation.__envGenerator__", "pyactr/simulation.py: Simulation.__localprocess__"]}
{"id": "C64", "title": "No request is forgotten", "statement": "Each request for a module, made by a rule or by a change of the environment, waits in a line until the module takes it up; modules take up requests first in, first out, and never lose one. When the clock goes on, no request waits for a module that has nothing to do.", "quantifier": "all models with distinct names of buffers, all environments, reachable states, steps and modules", "why_tests_cant": "The list of requests is shared by the process of the rules, that of the environment and those of all modules; whether a request is lost or a module sleeps through it depends on which of them act at the same moment.", "anchors": ["pyactr/simulation.py: Simulation.__extraprocessGenerator__", "pyactr/simulation.py: Simulation.__procprocessGenerator__", "pyactr/simulation.py: Simulation.__envGenerator__", "pyactr/productions.py: ProductionRules.procs"]}
{"id": "C65", "title": "A compiled rule is as demanding as its first rule", "statement": "Production compilation merges two rules that fired after each other into one. Whenever the conditions of the compiled rule hold in the buffers, so do the conditions of the first of the two rules, all of them under one assignment of values to variables that agrees with the buffers: compiling never makes a rule fire where the first rule could not.", "quantifier": "all rules of known types with data in them, all knowledge about the buffers that compilation uses, all compiled rules, buffers and assignments", "why_tests_cant": "Renaming, matching, replacing variables by values and merging slots interact, and a condition lost in one of these steps shows only in a state in which exactly that condition fails.", "anchors": ["pyactr/productions.py: Productions.compile_rules", "pyactr/productions.py: Productions.__collapse__", "pyactr/productions.py: Productions.__substitute__", "pyactr/utilities.py: match", "pyactr/utilities.py: make_chunkparts_with_new_vars", "pyactr/utilities.py: merge_chunkparts"]}
{"id": "C66", "title": "A compiled rule keeps the conditions of its second rule", "statement": "Whenever the conditions of a compiled rule hold in the buffers, so do the conditions of the second rule on the buffers that the first rule does nothing to, all of them under one assignment of values to variables in which variables that the first rule gave a value have that value.", "quantifier": "all rules of known types with data in them, all knowledge about the buffers that compilation uses, all compiled rules, buffers, assignments and parts of the conditions of the second rule", "why_tests_cant": "Conditions of the second rule are renamed, replaced by what the first rule leaves behind, merged into those of the first rule or dropped, depending on what the first rule tests and does; tests see few of these combinations.", "anchors": ["pyactr/productions.py: Productions.compile_rules", "pyactr/productions.py: Productions.__collapse__", "pyactr/productions.py: Productions.__rename__", "pyactr/productions.py: Productions.__substitute__", "pyactr/utilities.py: match", "pyactr/utilities.py: merge_chunkparts"]}
{"id": "C67", "title": "A compiled rule does in one step what its two rules do in two", "statement": "Two rules that test, query and modify buffers fire after each other and are compiled into one rule, using what is known about the buffers after the first rule. Whenever the compiled rule can turn some buffers into others, there are buffers in between such that the first rule turns the former into those and the second rule turns those into the latter.", "quantifier": "all pairs of rules that only modify buffers, with data in them, what is recorded after the first rule, all contents of the buffers before and after", "why_tests_cant": "The equivalence relates three rules in all states of the buffers; renaming, tying of variables, substitution and the merging of conditions and actions all have to fit, and a test shows one state for one pair of rules.", "anchors": ["pyactr/productions.py: Productions.compile_rules", "pyactr/productions.py: Productions.__collapse__", "pyactr/productions.py: Productions.__rename__", "pyactr/productions.py: Productions.__substitute__", "pyactr/utilities.py: match", "pyactr/utilities.py: make_chunkparts_with_new_vars", "pyactr/utilities.py: make_chunkparts_without_varconflicts"]}
{"id": "C68", "title": "A rule that fires does to the buffers what its actions say", "statement": "A rule that tests, queries and modifies buffers has been selected. If its conditions hold, then it fires without an exception, except for the compilation of the two rules before it, and afterwards there is an assignment of values to variables under which the conditions held and such that every modified buffer is free and has the chunk of before with just the mentioned slots changed to the values that the actions give, and every other buffer is as before; with compilation, the record of what is known has an entry for each buffer and says of the modified ones just what the test and the action say about their slots. If the conditions do not hold, the buffers stay as they are.", "quantifier": "all rules that only modify buffers, all states of the model in which such a rule is about to fire, all interleavings in which others leave the buffers and the rules alone while it fires, with and without compilation", "why_tests_cant": "Which slots keep their values depends on the type in the action, the chunk in the buffer, the variables and the order of actions, and the record for compilation is only visible in rules compiled much later.", "anchors": ["pyactr/productions.py: Productions.procedural_process", "pyactr/productions.py: Productions.update", "pyactr/productions.py: Productions.modify", "pyactr/buffers.py: Buffer.modify", "pyactr/vision.py: VisualLocation.modify"]}
{"id": "C69", "title": "A compiled rule can fire wherever its two rules can fire one after the other", "statement": "Two rules that test, query and modify buffers fire after each other and are compiled into one rule, using what is known about the buffers after the first rule. Whenever the first rule can turn some buffers into others and the second rule can turn those into third ones, the compiled rule can turn the first buffers into the third ones.", "quantifier": "all pairs of rules that only modify buffers, with data in them, what is recorded after the first rule, all contents of the buffers before, between and after", "why_tests_cant": "The compiled rule merges conditions and ties variables with the help of what is recorded, and whether it demands too much shows only in states of the buffers that the two original rules accept and the compiled one does not; a test shows one state for one pair of rules.", "anchors": ["pyactr/productions.py: Productions.compile_rules", "pyactr/productions.py: Productions.__collapse__", "pyactr/productions.py: Productions.__rename__", "pyactr/productions.py: Productions.__substitute__", "pyactr/utilities.py: match", "pyactr/utilities.py: merge_chunkparts", "pyactr/utilities.py: make_chunkparts_with_new_vars", "pyactr/utilities.py: make_chunkparts_without_varconflicts"]}
{"id": "C70", "title": "Utilities settle where the delayed rewards are", "statement": "With a learning rate alpha between 0 and 1, over any history of cycles the utilities of all rules stay in every range (with bounds of at most four decimals) that contains them at first and contains every delayed reward received, and 0 if rules are compiled. If every delayed reward that a given rule (not one made by compilation) receives lies between a and b, then after k of them its utility is above b by at most (1-alpha)^k times what it was above b at first plus 0.00005/alpha, and likewise below a; so, up to rounding, it comes as near to the range as one likes, after a number of rewards that does not depend on the history. Without learning no utility ever changes.", "quantifier": "all models, histories of cycles with any interference by other processes, rules, ranges of rewards, learning rates", "why_tests_cant": "It is a statement about the limit of arbitrarily long histories with rounding in every step; a test sees one finite history.", "anchors": ["pyactr/utilities.py: modify_utilities", "pyactr/productions.py: ProductionRules.procedural_process", "pyactr/productions.py: Productions.compile_rules"]}
{"id": "C71", "title": "What is not used is forgotten, what is used often enough is not", "statement": "With base-level learning and a positive decay, if nothing is added to declarative memory and no chunk has an activation given by hand, the base level of every chunk goes below any value, so there is a time from which on every retrieval fails, whatever is asked for and whatever is in the buffers, as long as what chunks get by noise and partial matching is bounded; the failure takes the time that belongs to the threshold. Conversely a chunk that fits a request and was stored at most g seconds ago makes the retrieval succeed if the threshold is at most -decay*ln(g) plus what the chunk gets by spreading, fit and noise; and so does, at all times, a chunk with a given activation that reaches the threshold.", "quantifier": "all memories that can be built without deletions, parameters of retrieval, requests, contents of buffers, times", "why_tests_cant": "It is about all late enough times, with a bound that has to hold for all requests and buffers at once.", "anchors": ["pyactr/utilities.py: baselevel_learning", "pyactr/utilities.py: spreading_activation", "pyactr/utilities.py: retrieval_success", "pyactr/declarative.py: DecMemBuffer.retrieve"]}
{"id": "C72", "title": "What is retrieved was asked for by a rule that fired", "statement": "In every run of a simulation, whenever it is reported that a chunk was retrieved into a buffer, or that none was, it has been reported before that a rule fired which has a request +buffer> among its actions; at some earlier moment the conditions of this rule held, with certain values of its variables; and if a chunk was retrieved, it was in the memory of that buffer at a moment after the rule fired and, without partial matching, it matches the request with the values of the variables that made the conditions hold. Likewise whatever waits to be started for an action +buffer> or *buffer> belongs to an action of a rule that has been reported to have fired, with the values of the variables with which its conditions held.", "quantifier": "all models, memories, environments, parameters, numbers of steps and calls of run", "why_tests_cant": "It excludes chunks from nowhere, requests of rules that were stopped, and values of variables of another rule, for every interleaving of modules, environment and rules.", "anchors": ["pyactr/productions.py: ProductionRules.procedural_process", "pyactr/productions.py: ProductionRules.update", "pyactr/productions.py: ProductionRules.retrieveorset", "pyactr/productions.py: ProductionRules.retrieve", "pyactr/simulation.py: Simulation.__procprocess__", "pyactr/declarative.py: DecMemBuffer.retrieve"]}
{"id": "C73", "title": "Keys are pressed only because a rule asked for it", "statement": "In every run of a simulation, whenever it is reported that a key was pressed, the key is a digit, a capital letter or the space bar, and it has been reported before that a rule fired which has a request +buffer> for this motor buffer among its actions; at some earlier moment the conditions of this rule held, with certain values of its variables; and the key is the upper case of the key that the request asks for with these values (provided that the request has different slot names, none of the exceptional slots excluded in C13, the chunk type of motor requests as the library defines it, and an upper case without '=' and '!').", "quantifier": "all models, environments, parameters, numbers of steps and calls of run", "why_tests_cant": "It excludes key presses from nowhere, presses for rules that were stopped, and keys of another rule or of other values of the variables, for every interleaving of modules, environment and rules, although a press is carried out by two processes one after the other.", "anchors": ["pyactr/productions.py: ProductionRules.motorset", "pyactr/productions.py: ProductionRules.motorcontinue", "pyactr/productions.py: ProductionRules.retrieveorset", "pyactr/motor.py: Motor.create", "pyactr/simulation.py: Simulation.__localprocess__"]}
{"id": "C74", "title": "What is seen was on the screen when a rule asked for it", "statement": "In every run of a simulation, whenever it is reported that an object was encoded in answer to a request, or a location, it has been reported before that a rule fired which has a request +buffer> for this buffer among its actions, whose conditions had held with certain values of its variables. If an object was encoded, then at a moment after the rule fired it was on the screen at the place that the request gives with these values, and the chunk has its text as value and its pixel as position. If a location was encoded, then at a moment after the rule fired an object was there, it satisfied the request with these values, and no other object on the screen at that moment was better.", "quantifier": "all models, environments, screens, parameters (with and without EMMA), numbers of steps and calls of run", "why_tests_cant": "It excludes objects from screens that were not shown, requests of rules that were stopped, and values of variables of another rule, for every interleaving of modules, environment and rules, although encoding goes on while the screen changes.", "anchors": ["pyactr/productions.py: ProductionRules.visualshift", "pyactr/productions.py: ProductionRules.visualcontinue", "pyactr/productions.py: ProductionRules.visualencode", "pyactr/productions.py: ProductionRules.retrieveorset", "pyactr/vision.py: Visual.shift", "pyactr/vision.py: VisualLocation.find", "pyactr/simulation.py: Simulation.__localprocess__"]}
{"id": "C75", "title": "Reading what was printed", "statement": "The text that is printed for the description in a slot, given as the text of a slot, is read as the same description: the same value, variable, negated values and negated variables.", "quantifier": "all descriptions with strings as values, and all names without special characters", "why_tests_cant": "A description has any number of negated values and variables with any names; which descriptions survive is a statement about all of them.", "anchors": ["pyactr/utilities.py: varval_repr", "pyactr/utilities.py: stringsplitting", "pyactr/chunks.py: Chunk.__repr__"]}
{"id": "C76", "title": "Requests are answered at most once", "statement": "At every point of the reports of a simulation, the module of a buffer has not answered more often than it was asked: the reports for this buffer that a chunk was retrieved or that none was, that a chunk was created, that a key was pressed, that a location or an object was encoded, are together not more than the actions +buffer> of the rules that were reported to fire before (counting a rule as often as it fired). So if the actions of each rule are different, there are at most as many answers as firings of rules that have an action for this buffer.", "quantifier": "all models with different buffers in which nothing is requested at the beginning, environments, parameters (the execution times of EMMA not being negative), numbers of steps and calls of run, buffers, and points of the reports", "why_tests_cant": "An answer given twice would need a particular interleaving: a request that is interrupted while it is carried out, a continuation that is taken up by two processes or taken up again after an interruption, or a process that is left in the list after it was started. All interleavings and all lengths of runs are covered.", "anchors": ["pyactr/simulation.py: Simulation.__extraprocessGenerator__", "pyactr/simulation.py: Simulation.__localprocess__", "pyactr/productions.py: ProductionRules.update", "pyactr/productions.py: ProductionRules.retrieveorset", "pyactr/productions.py: ProductionRules.visualshift", "pyactr/productions.py: ProductionRules.motorset"]}
{"id": "C77", "title": "Nothing is remembered before it happens", "statement": "In every state of a simulation, no chunk in a declarative memory has a trace (a time at which it was added or met again) that is later than the clock of the simulation; so the ages of chunks, from which activations are computed, are never negative.", "quantifier": "all models in which nothing is queued at the beginning and no trace is later than the initial time, environments, parameters, numbers of steps and calls of run", "why_tests_cant": "A trace in the future exists only between two events and is seen only if a retrieval falls into this time; whether some interleaving of modules, interruptions and rules produces one is a statement about all runs.", "anchors": ["pyactr/productions.py: ProductionRules.visualencode", "pyactr/productions.py: ProductionRules.clear", "pyactr/declarative.py: DecMem.add", "pyactr/simulation.py: Simulation.__localprocess__"]}
{"id": "C78", "title": "Memory only grows, and only by what was in a buffer", "statement": "Whatever a simulation does from any of its states on, all that happens to the contents of buffers and memories is a sequence of steps of a few kinds: a chunk is put into a buffer in place of what was there; a buffer is emptied; the chunk is taken from a buffer; it is replaced by a changed one; it is taken and stored in a memory into which this buffer is emptied; or a rule calls a method of a buffer. So nothing is ever forgotten, the times at which a chunk was met are only ever added to at the end, everything new in memory was in a buffer that lost it at that moment, and no buffer holds more than one chunk.", "quantifier": "all models, environments, parameters, numbers of steps, calls of run and exceptions; no more than one chunk per buffer for models in which this is so at the beginning and in which the methods called by rules keep it so", "why_tests_cant": "A chunk that is lost, stored twice or stored without having been in a buffer shows only if the right interleaving of modules, requests and clearings occurs; tests see a few runs, the statement is about all of them.", "anchors": ["pyactr/buffers.py: Buffer.add, Buffer.modify", "pyactr/declarative.py: DecMem.add, DecMemBuffer.clear", "pyactr/goals.py: Goal.add, Goal.clear", "pyactr/productions.py: ProductionRules.procedural_process", "pyactr/simulation.py: Simulation.__localprocess__"]}
{"id": "C79", "title": "Rules are never lost or changed", "statement": "A rule that a model has at one time it has at every later time of a simulation, with the same conditions, actions and reward, and without learning with the same utility. Every rule was there at the beginning or was made by compilation, perhaps in several turns, of rules that were there at the beginning; without compilation no rule is ever added. The list of rules that conflict resolution goes through is only ever added to, at the end, and has at all times exactly the rules that the model has, so that none is left out and none is looked for in vain.", "quantifier": "all models, environments, parameters, numbers of steps, calls of run and exceptions", "why_tests_cant": "That no sequence of rewards, compilations and exceptions loses or alters a rule is a statement about all histories; tests look at the rules after a few.", "anchors": ["pyactr/productions.py: ProductionRules.compile_rules, ProductionRules.procedural_process", "pyactr/productions.py: Productions.compile_rules", "pyactr/utilities.py: modify_utilities"]}
{"id": "C80", "title": "The best of the matching rules is selected at all times", "statement": "In every state of a simulation without utility noise, of a model whose rules are in the order of their utilities at the beginning (as the constructor puts them), rules are tried in the order of their utilities, and conflict resolution selects, of the rules that match, one with the highest utility.", "quantifier": "all models, environments, parameters without noise, numbers of steps, calls of run and exceptions", "why_tests_cant": "The order is made once, when the model is built, and utilities change with rewards and with compilation; whether the order is still right is a statement about every later state.", "anchors": ["pyactr/productions.py: ProductionRules.__init__", "pyactr/productions.py: ProductionRules.procedural_process", "pyactr/productions.py: ProductionRules.compile_rules"]}
{"id": "C81", "title": "Every call of run comes to an end", "statement": "If rules fire more than 0.05 ms after they are selected, every call of run returns or raises an exception after finitely many steps, in whatever state of whatever simulation it is made and whatever happened before, and has only one outcome. After calls of run on a new simulation have succeeded, a further one with a later time ends with an exception or with the clock at that time.", "quantifier": "all models, environments, parameters with rule_firing above 0.05 ms, all states reached by any number of steps, calls of run and exceptions, all times", "why_tests_cant": "That no model keeps the simulation busy at one moment for ever, with rules, modules, interruptions and the environment waking each other, is a statement about all models and all histories; a test that does not end shows nothing.", "anchors": ["pyactr/simulation.py: Simulation.run, Simulation.__procprocessGenerator__, Simulation.__extraprocessGenerator__, Simulation.__envGenerator__, Simulation.__localprocess__", "pyactr/productions.py: ProductionRules.procedural_process"]}
{"id": "C82", "title": "Rules fire one at a time, rule_firing apart", "statement": "Between two firings of rules in a simulation at least rule_firing goes by, and so between two selections; hence in any interval of length T at most T / rule_firing + 1 rules fire, and since the beginning of the simulation at most T / rule_firing. This is exact if rule_firing is a multiple of 0.1 ms; otherwise, since times are rounded, up to 0.05 ms can be missing.", "quantifier": "all models, environments, parameters, all states reached by any number of steps, calls of run and exceptions, all intervals", "why_tests_cant": "The bound must hold however modules, the environment, rewards and compilation interfere with the cycle of the rules.", "anchors": ["pyactr/productions.py: ProductionRules.procedural_process", "pyactr/simulation.py: Simulation.__procprocessGenerator__"]}
{"id": "C83", "title": "One call of run or several", "statement": "From every state of a simulation that was used without exceptions, run(t2) and run(t1) followed by run(t2), with any time t1 in between, come to the same: the same exception or none, the same time on the clock, the same state of the model and its modules, the same reports, and no difference in any further calls. The same holds for any number of calls.", "quantifier": "all models, environments, parameters, all states reached by steps and successful calls of run, all times in between", "why_tests_cant": "The stop event takes a place in the schedule and a number among the events; that this is never noticed is a statement about all pairs of executions.", "anchors": ["pyactr/simulation.py: Simulation.run", "pyactr/productions.py: ProductionRules.compile_rules"]}
{"id": "C84", "title": "When nothing is left to happen, nothing is under way", "statement": "Whenever a simulation has no event left in its schedule, every process of the simulation that has not ended waits to be activated by an event that has not been triggered: no request is being carried out, no rule has been selected without firing, and the environment is over. Without exceptions the process of the rules is among those that wait, each module waits as well, and no request is left for any of them. Whatever is called from then on only moves the clock: run(t) ends at t, with nothing left to happen, and changes neither reports nor buffers, memories, requests and processes; without compilation it leaves the whole model as it was.", "quantifier": "all models, environments, parameters, all reachable states with an empty schedule (also after exceptions for the first part), all later calls", "why_tests_cant": "A process that waits for an event nobody will ever trigger is a deadlock; that there is none but waiting for activation is an invariant of all executions, over all combinations of interruptions, conditions and requests.", "anchors": ["pyactr/simulation.py: Simulation.run", "pyactr/simulation.py: Simulation.__extraprocessGenerator__", "pyactr/simulation.py: Simulation.__procprocessGenerator__", "pyactr/simulation.py: Simulation.__localprocess__", "pyactr/simulation.py: Simulation.__envGenerator__"]}
{"id": "C85", "title": "Modules stay in service", "statement": "The process of each module (each buffer but one called PROCEDURAL) is the same from the beginning of a simulation on, and it never returns. As long as no exception has been raised, it waits for a request or works on one; the only other possibility is that it has just failed, and then its exception, whatever it is, is raised before the clock goes on. So whenever a step moves the clock, every module is in service.", "quantifier": "all models, environments, parameters and modules, all states reached by any number of steps and calls of run", "why_tests_cant": "A process of a module could end or hang in any of its states, by an exception inside or outside of its try statement, an interruption, or a yielded event that nobody triggers; a test only sees the states it passes through, and a module that ended silently would show only when it is asked again.", "anchors": ["pyactr/simulation.py: Simulation.__extraprocessGenerator__", "pyactr/simulation.py: Simulation.__init__", "pyactr/simulation.py: Simulation.__localprocess__"]}
{"id": "C86", "title": "Copies of memories and buffers are equal to the original and independent of it", "statement": "DecMem.copy() gives a memory with the same chunks, times, activations and association counters, and from then on neither is changed by anything that is not done to it or to a buffer it belongs to. Goal.copy() and DecMemBuffer.copy() give a buffer with the same content; nothing that is done to one of the two buffers changes the content of the other, and the same calls on the copy come to the same as on the original. A copied retrieval buffer comes with its own copy of the memory, so nothing done to it changes the memory of the original, and it is set up like the original (delay, finst).", "quantifier": "all programs that create, fill, change, tune and copy memories and buffers in any order, including calls that fail; all chunks, times and hash functions", "why_tests_cant": "Whether two objects share a mutable set or memory shows only under particular later calls (methods that change the set in place, not those that replace it), so independence is a statement about all interleavings of calls on the original, the copy and other buffers of the same memory.", "anchors": ["pyactr/declarative.py: DecMem.copy", "pyactr/declarative.py: DecMemBuffer.copy", "pyactr/goals.py: Goal.copy", "pyactr/buffers.py: Buffer.add", "pyactr/buffers.py: Buffer.modify"]}
{"id": "C87", "title": "A simulation with a window prints the same trace", "statement": "With gui=True the simulation is carried out by a thread that takes the steps run would take and prints what it finds in current_event. It prints exactly the events that are printed without a window, in the same order. In real time it never sleeps for a negative time (which would raise ValueError), and all in all it has slept until the time of the last event it noticed; it ends only when nothing is left to happen or when the simulation itself fails.", "quantifier": "all models, environments and parameters, all numbers of rounds of the thread, with and without real time (initial time not negative in real time)", "why_tests_cant": "GUI code is not tested at all (it needs a display and a second thread), and events are lost only where two equal events follow each other directly, which depends on the timing of all modules; that the sleeping times are never negative depends on the order of all events of all simulations.", "anchors": ["pyactr/simulation.py: Simulation.__workerThread1__", "pyactr/simulation.py: Simulation.__printevent__", "pyactr/simulation.py: Simulation.__endGui__"]}
{"id": "C88", "title": "Simpy is not misused", "statement": "simpy raises RuntimeError when an event is triggered twice and when a process is interrupted that has ended. In a simulation without environment neither happens as long as the modules work: step and run raise RuntimeError, and a process fails with it, only if the process of a module has failed with another exception; and neither raises it as long as no other exception has been raised: RuntimeError is never the first exception.", "quantifier": "all models without environment, parameters, numbers of steps, calls of run and exceptions; the rules and methods given to the simulation do not raise RuntimeError themselves", "why_tests_cant": "Which events are pending and which processes are alive when a module is called or interrupted depends on the order of everything that happens at the same time in all modules.", "anchors": ["pyactr/simulation.py: Simulation.__procprocessGenerator__", "pyactr/simulation.py: Simulation.__extraprocessGenerator__", "pyactr/simulation.py: Simulation.__activate__", "pyactr/simulation.py: Simulation.__localprocess__"]}
{"id": "C89", "title": "The buffers of a model object and their names", "statement": "model.goal is the goal buffer set last as long as goals are set under the name g only (the initial one if none is set), and raises ValueError as soon as one has been set under another name; model.retrieval likewise with the name retrieval. A name stands in rules, in all later simulations, for the goal or retrieval buffer that was set under it, until another buffer is set under it. The buffer that model.goal shows is the one that rules call g.", "quantifier": "all sequences of set_decmem, set_goal, set_retrieval, visualBuffer, changes of memories and simulations, with and without environment; for what names stand for: names other than manual, visual and visual_location", "why_tests_cant": "The buffers are kept in several dictionaries that every method and every simulation writes; whether they agree depends on the order of all calls before.", "anchors": ["pyactr/model.py: ACTRModel.goal", "pyactr/model.py: ACTRModel.retrieval", "pyactr/model.py: ACTRModel.set_goal", "pyactr/model.py: ACTRModel.set_retrieval", "pyactr/model.py: ACTRModel.simulation"]}
{"id": "C90", "title": "Chunk types only grow", "statement": "Chunks that rules and modules create may extend the chunk types (Chunk._chunktypes) or add new ones. In a simulation no chunk type is ever lost and none loses a slot, so that every chunk that could be created before can be created later. The types of the modules for vision and hands (_manual, _visual, _visuallocation) keep exactly the slots they were defined with and are never added. The slots of all types stay sorted and distinct, with legal names.", "quantifier": "all models, with and without environment, all parameters, all states of all simulations and all later states", "why_tests_cant": "Chunk types are changed as a side effect of creating chunks, which all modules do at any time; the types that arise depend on the order in which chunks with different slots are created.", "anchors": ["pyactr/chunks.py: Chunk.__init__", "pyactr/chunks.py: chunktype", "pyactr/productions.py: ProductionRules", "pyactr/simulation.py: Simulation"]}
{"id": "C91", "title": "Buffers show the slots of their chunk", "statement": "After a chunk that was created with a text (or a chunk) for a slot has been put into a buffer, buffer.show(slot) prints the name of the slot and the text (or the chunk as it is printed by itself); a slot of the chunk type that was not given is shown as None, and of anything else only the name is printed.", "quantifier": "all chunk types, slots, texts without the signs of the mini-language, chunks with slots, and all buffers", "why_tests_cant": "show is not tested, and whether a slot is seen depends on its name, which is chosen by the user.", "anchors": ["pyactr/buffers.py: Buffer.show", "pyactr/chunks.py: Chunk.__getattr__", "pyactr/chunks.py: Chunk.__init__", "pyactr/utilities.py: varval_repr"]}
{"id": "C92", "title": "The buffers and memories of a simulation are fixed", "statement": "In all states of a simulation the model has exactly the buffers that it had at the beginning, in the same order and under the same names, each of its class and with the declarative memory that it is emptied into; and it has the declarative memories that it had, under the same names. Only their content changes.", "quantifier": "all models, with and without environment, all parameters, all states of all simulations; the methods that rules call do not give a buffer another memory", "why_tests_cant": "Buffers and memories are objects that all modules change at any time; that none is replaced, lost or added holds only if it holds for every piece of code between any two events.", "anchors": ["pyactr/productions.py: ProductionRules", "pyactr/simulation.py: Simulation", "pyactr/buffers.py: Buffer"]}
{"id": "C93", "title": "Every report is attributed to the one that tells it", "statement": "Every event that a simulation reports names the one that tells things like this: conflict resolution, selection, firing, stopping and compilation of rules are attributed to PROCEDURAL, changes of the screen to ENVIRONMENT, and everything else to a buffer that the model has had from the beginning. So, unless a buffer has that name, what is attributed to PROCEDURAL is about rules and vice versa, and no rule, not even one that names a buffer that does not exist, makes a module report anything for such a buffer.", "quantifier": "all models whose waiting processes, if any, work for their buffers, with and without environment, all rules and parameters, all states of all simulations, also after exceptions", "why_tests_cant": "Names of buffers are passed along from rules to generators, lists of processes, continuations and events, in any number of processes; a single wrong name on a rarely taken branch would misattribute a report.", "anchors": ["pyactr/productions.py: ProductionRules.procedural_process, update, retrieveorset, modify_request, clear, automatic_search, automatic_buffering, visualcontinue, motorcontinue", "pyactr/simulation.py: Simulation.__localprocess__, __extraprocessGenerator__, __envGenerator__, __envprocess__, __printevent__"]}
{"id": "C94", "title": "What only one kind of module does is reported only by that kind", "statement": "Every report of something that only one kind of module does names a buffer of that kind: START RETRIEVAL and RETRIEVED a buffer of a declarative memory, CREATED A CHUNK a goal, ENCODED LOCATION and the automatic search a visual location buffer, encoded objects, shifts of attention and automatic buffering a visual buffer, motor commands and their phases and pressed keys a motor buffer. In particular, a model without motor buffers never presses a key and never passes one on to its environment, whatever its rules ask for.", "quantifier": "all models whose waiting processes, if any, work for buffers of the right kind, with and without environment, all rules and parameters, all states of all simulations, also after exceptions", "why_tests_cant": "The class of the buffer is looked at once, when the request is carried out; what is left to be done later and what the screen starts by itself is passed along by name only, through lists and events shared by all processes.", "anchors": ["pyactr/productions.py: ProductionRules.retrieveorset, retrieve, visualshift, visualcontinue, motorset, motorcontinue, automatic_search, automatic_buffering", "pyactr/simulation.py: Simulation.__envGenerator__, __extraprocessGenerator__"]}
