# Formal model of pyactr: design

Source: `/repo` (jakdot/pyactr at the pinned commit), read as text. Model: Lean 4, `/verif/lean`.

## Trusted base

* Lean 4.33.0 kernel, and the axioms `propext`, `Classical.choice`, `Quot.sound` (via Mathlib). No other
  axioms, no `sorry`, no `native_decide`, no `bv_decide`. `Verif/Audit.lean` prints the axioms of every
  property theorem.
* The reading of the Python code embodied in the definitions of `Verif/Model/*.lean`. Every definition cites
  the file and lines it models and lists its simplifications.
* The specifications in `Verif/Spec/*.lean`, which are written without the model's helper functions.

## Modelling conventions

* **Errors.** A Python function that may raise returns `Except PyErr α`; where the code mutates state before
  raising, the model returns the new state next to the error.
* **Hashing and equality.** `Chunk.__eq__` *is* equality of hashes (chunks.py:165-169). The model takes the
  hash functions of strings, tuples and None and the iteration order of sets as a parameter `H : PyHash`
  (arbitrary functions), so `==` on chunks is literally `hash a = hash b`. Theorems that need absence of
  collisions assume `H.CollisionFree` explicitly, and the file shows that such an `H` exists.
* **Values.** `Val = None | EmptyValue | str | Chunk`. Everything else is turned into a string by
  `Chunk.__init__`. Chunks nested in chunks have no bound variables of their own (`boundvars = {}`).
* **Numbers.** Times, utilities and similarities are exact rationals with exact round-half-even to four
  decimals; activations are real numbers. IEEE rounding is not modelled.
* **Random draws** (noise) are universally quantified inputs.
* **Generators** (`yield`) are values of type `Out`/`Gen` (`Model/Gen`): what a generator yields or how it
  ends, and how it goes on from whatever state it is resumed in. The code of the modules is written in the
  monad `GenM` over the state `Mach` (`Model/Machine`), branch by branch. `Runs` is a run of a generator
  during which other code may change the state at every `yield`, within a relation given as a parameter.
  Theorems about one process hold for all such interferences they allow.
* **Simulations** (`Model/Simpy`, `Model/Simulation`) have a schedule, events with callbacks, and processes
  that are represented by the place in the code where they wait. `Reachable` is every state after any number
  of steps and calls of `run`, also after exceptions.
* **Python parameters.** The structure `Py` (`Model/BoundVars`) collects what depends on the interpreter or
  on libraries: hashes, order of sets, whether a string is an identifier, `str` of values. `Cfg`
  (`Model/Machine`) collects the parameters of a model and the functions that turn random draws, EMMA times
  and the like into values. Both are universally quantified.
* **Real arithmetic** (`Model/Subsymbolic`, `Model/Retrieve`, `Model/Emma`): activations, latencies and angles are real numbers;
  `Cfg.fl` turns a latency into a time of the clock and is arbitrary.

### Main simplifications

Each is stated at the definition concerned. The ones that matter most:

* `externally_visible` attributes of visual objects do not include 'cmd' (`visChunk`).
* A value that is not a chunk where a chunk is needed is found out before the buffer is touched (`RVal.asChunk`).
* All visual buffers belong to the environment of the simulation (`automaticFor`).
* No rule has the empty string as its name (`genProcedural`).
* A generator that yields its continuation is not resumed afterwards, as in `__localprocess__`.
* Methods called by `!` actions are an arbitrary function on the buffer that does not change its class
  (`Cfg.exec`).

## Not modelled

GUI/tkinter (but see C87 for the thread of a simulation with a window), realtime mode without it, warnings, IEEE floating point, `inspect`-based reading of rule functions,
CPython object identity and garbage collection, thread timing. pyparsing is not in the repository: `Model/Parse`
follows its documented behaviour (version 3) for the elements used: words, literals, `one_of`, quoted strings,
repetition, options, groups, white space and tabs. simpy is not in the repository either: `Model/Simpy` follows its documented behaviour (version 4): a schedule ordered by time,
priority and order of insertion, `Event`, `Timeout`, `Process` with `interrupt`, `a | b`, `run(until)`. This is
part of the trusted base, like `Model/Parse`.

## Layout

* `Verif/Model`: the code. `Verif/Spec`: what the properties talk about, without the helper functions of the
  model. `Verif/Lemmas`: lemmas. `Verif/Props`: the theorems `Cxx_…` and concrete cases meeting their
  hypotheses. `Verif/Audit.lean` prints the axioms of all of them.
* When code and property disagree there are `Cxx_full` (the statement), `Cxx_refuted` (a witness) and
  `Cxx_…_partial` (what holds). `MANIFEST.json` says for each property what is missing.
* `seeded/LOG.jsonl`: wrong programs tried against the theorems.

## Proof techniques

* *Generators*: a weakest-precondition calculus (`Lemmas/Gen`), the events a generator can yield
  (`Lemmas/Yields`), where it can end (`Lemmas/Status`), what it leaves alone (`Lemmas/Confined`), the course
  of a process in stages (`Lemmas/Stages`, `Lemmas/Carried`).
* *Simulations*: `Inv` (`Lemmas/Sim`) is the invariant of the event loop: the schedule is sorted and not in
  the past, every scheduled event has a value, a process waits for exactly one event that has its callback
  exactly once, interruptions come before anything else at the same time, events that a process waits for are
  due at the time it reports. `Fine` adds the cycle of the rules: at most one process runs rules, and the
  reports so far spell a sequence of cycles. `Lemmas/SimCode` shows that each piece of code keeps this,
  `Lemmas/SimStep` that each callback and step does, `Lemmas/SimReach` that every reachable state has it.
  `Lemmas/SimPreempt` follows an interrupted process through all later states (`Later`, `Doomed`).
  `Watched` (`Lemmas/SimEnv`) describes the process of the environment: what it waits for, who can trigger it.
* *Reading*: a relation between rules and their texts (`Spec/Parse`); every reader consumes exactly the text of
  its part when what follows cannot belong to it (`Lemmas/Parse`), and conversely.
* *Witnesses* against full statements about simulations are runs of the model evaluated by the kernel
  (`Lemmas/ExSim`, `decide +kernel`; no `native_decide`).

## Properties, model and proof plan

| id | model | proof |
|----|-------|-------|
| C01 | `Model/Chunk`: `hash`, `removeempty`, `pyEq` | `==` is hash equality, hence an equivalence; under collision-freedom equality of hashes iff equality of recursively normalised contents (induction on nesting) |
| C02 | `Model/Chunk`: `matchSlots`, `le` | induction on the slot list; the shortcut `==` implies the declarative meaning |
| C03 | same | invariant on bindings over the slot list; false for multi-character names (the hash iterates over characters): counterexample proved, `_partial` for one-character or unbound names |
| C04 | same | corollary of an order-free characterisation |
| C05 | `Model/Chunk`, `Model/Retrieve`, `Model/Buffer`; spec in `Spec/Untyped` (what is left of a chunk, a binding, a memory without type names) | type names are erased, at any depth, without changing any comparison, match or retrieval; slots that ask for nothing are ignored, so that `isa` only adds names of slots |
| C06 | same | from C02; counterexample for explicit None |
| C07 | same with `partialmatching=True` | score = sum over violations, by induction |
| C08 | `Model/Similarity` | induction over histories against a "last write" specification |
| C09 | `Model/ChunkType` | case analysis on `Chunk.__init__` |
| C10 | `Model/ChunkType` | induction over parents; the isa check is dead code: counterexample |
| C11 | `Model/StringSplit`: regex semantics over character lists | induction over rendered parts |
| C12 | `Model/ChunkDict` | induction over the pair list |
| C13 | `Model/BoundVars` | case analysis; refuted, crashing cases characterised exactly, `_partial` for ordinary descriptions |
| C14 | `Model/BoundVars` | refuted for every binding |
| C15 | `Model/Buffer` | invariant over operation histories |
| C16 | `Model/Buffer`, `Model/BoundVars` | dictionary update laws; refuted for failing modifications |
| C17 | `Model/Buffer`, `Model/DecMem` | conservation of traces; refuted for goals that get another chunk |
| C18 | `Model/DecMem` | refinement to an append-only log; refuted for collections of times |
| C19 | `Model/DecMem` | refuted for collections that begin with a chunk of two slots, `_partial` otherwise |
| C20 | `Model/DecMem`, `Model/Assoc` | cache invariant over histories; refuted with deletion |
| C21-C23 | `Model/Retrieve` | fold invariants over memory; C22 refuted for chunks without slots |
| C24-C26 | `Model/Subsymbolic` | real analysis; C25 refuted for two traces at one instant |
| C27 | `Model/Assoc` | fold = sum |
| C28-C29 | `Model/Rules` | induction over conditions and rules; both refuted in corners |
| C30 | `Model/Procedural`, `Spec/Cycle`, `Spec/Simulation` | wp calculus over all interferences; refuted with compilation; times in every simulation from the invariant of C43, which keeps the time of the selection; outcomes in time (`Spec/Outcome`) from the invariants that no process waits in vain and that the process of the rules is never interrupted and waits for nothing that lies ahead (`Lemmas/Tame`) |
| C31-C32 | `Model/Procedural`, `Spec/Update` | sortedness of actions, course of `update`; refuted where queued requests follow clearings, and for variables named like buffers |
| C33 | `Model/Procedural`, `Model/Compile`, `Spec/Learning` | induction over histories of cycles, also with compilation (`C33_compiled`); refuted for rules that are stopped |
| C34-C35 | `Model/Modules`, `Model/Motor`, `Spec/Press` | stages of a press, schedules of batches; refuted |
| C36 | `Model/Motor` | case analysis; refuted for requests without a command |
| C37-C38 | `Model/Environment` | induction over the lists; refuted in corners |
| C39-C40 | `Model/Vision`, `Spec/Vision` | fold invariants (Pareto optimality, minimum); refuted in corners |
| C41 | `Model/Modules`, `Spec/Shift` | stages of a shift; refuted for the remaining share of the encoding time |
| C42 | `Model/Simulation` | `Inv` in every reachable state |
| C43 | `Model/Simulation` | `Fine`: reports spell cycles, the process in progress knows where |
| C44 | `Model/Modules`, `Spec/Rest` | ends calculus; refuted for automatic searches |
| C45 | `Model/Simulation` | `Doomed` kept by all later steps; refuted for motor commands past their preparation |
| C46 | `Model/Simulation` | runs up to the stopping event; refuted for simulations that do not start at 0 |
| C47 | `Model/Simulation` | `Watched` in every reachable state; refuted after the last stimulus |
| C48-C50 | `Model/Compile` | case analysis, induction on the search for a free name; refuted in corners |
| C51-C52 | `Model/ActrModel` | induction over histories |
| C53 | `Model/Modules`, `Spec/Machine` | frame conditions over all interferences (`Lemmas/Confined`) |
| C54 | `Model/Parse`, `Spec/Parse` | completeness and soundness of the grammars, induction over texts |
| C55 | `Model/Parse`, `Model/ChunkDict` | induction over tests and actions; refuted for repeated buffers |
| C56 | `Model/Parse` | refuted: rules without names raise TypeError |
| C57 | `Model/Stepping`, `Spec/Stepping` | at most one report per event of simpy: no two processes wait for the same timeout (`Lemmas/SimReports`); refuted after `run` and for repeated reports |
| C58 | `Model/Emma`, `Spec/Emma` | the tangent is strictly monotone up to a right angle; refuted by 45 degrees |
| C59 | `Model/Emma`, `Model/Modules`, `Spec/Emma` | induction over the objects, then geometry; refuted by a corner of the square |
| C60 | `Model/Simulation`, `Spec/Waiting` | invariant that no process waits in vain (`Lemmas/Awake`) and that its event lies ahead (`Lemmas/Sim`); induction over continuations |
| C61 | `Model/Simulation`, `Spec/React` | invariant for the phases of a cycle and the word PROCEDURAL in the list of processes (`Lemmas/React`, `Lemmas/Aware`): before the clock goes on, process 2 waits for a module or a rule is under way; counterexample by kernel evaluation |
| C62 | `Model/Simulation`, `Spec/Errors` | invariant (`Lemmas/Errors`): failures that nobody has been told of are due at once, and only interruptions are taken care of beforehand; each step hands a failure on to a process or event that fails, or raises it |
| C63 | `Model/Simulation`, `Spec/Strike` | invariant `Ready` (`Lemmas/Orders`, `Poised`, `Ready`, `ReadyCode`, `ReadyStep`, `ReadyRun`): a module that works is called and has a waiting request for each of its interruptions in the schedule, one that is idle and interrupted has been called; then the step of the interruption is carried out (`Lemmas/Strike`). That no other process fails with simpy.Interrupt: no pure function raises it (`Lemmas/Blameless`), no generator does (`Lemmas/Hush`), and an invariant says that each event that failed with it is an interruption or the end of a module's process that was interrupted (`Lemmas/Placid`) |
| C64 | `Model/Simulation`, `Spec/Requests` | lines: each step only adds requests at the end or is one module's taking its first one (`Lemmas/Lines`, `Lined`); idle modules: invariant `Mindful` (`Lemmas/Summon`, `Hark`, `Mindful`): a module with a waiting request has been called, or the process of the rules will still call it at this moment |
| C65, C66 | `Model/Compile`, `Spec/Demand`, `Spec/Rules` | the assignment for the compiled rule is pulled back through substitution (`pull`) and renaming; each loop of `__collapse__` keeps what it should (`Lemmas/Demand`: `collapseLhs1_keeps`, `collapseLhs1_merges`, `collapseLhs2_keeps`, `collapseLhs2_adds`); variables are replaced only by values that require something (`SoundMatch`) |
| C67 | `Model/Compile`, `Spec/Sequence`, `Spec/Demand` | the buffers between the two rules are built from the actions of the first one (`Lemmas/Fires`: `TwoRules.middle`); tests of what it has set become true because the variables in both are tied (`Lemmas/Sequence`: `Tied`, `tie_true`), all other tests by C66 (`TwoRules.holds2`); tests of the first rule by C65 |
| C68 | `Model/Procedural`, `Model/Modules`, `Spec/Firing`, `Spec/Sequence` | one turn of the loop over the actions (`Lemmas/Firing`: `updateLoop_step`), induction over the actions for all undisturbed runs (`updateLoop_runs`), then `genRhs_runs` and `genFire_runs`; C28 for the test; with C67 for compiled rules (`C68_compiled_partial`) |
| C69 | `Model/Compile`, `Spec/Converse`, `Spec/Sequence` | the assignments of the two rules are joined (`Lemmas/Converse`: `jointAssign`), the joint one respects every variable that is tied and every value that is put for a variable (`RulesInRow.respects`, induction over the slots that meet), so substitution keeps conditions true (`subst_true`); then the conditions (`RulesInRow.lhsHolds`) and the actions buffer by buffer (`only1`, `only2`, `both`) |
| C70 | `Model/Procedural`, `Spec/Settling`, `Spec/Learning` | every history is a sequence of rounded steps towards the delayed rewards (`steps_drawn`, from `C33_compiled`); ranges by monotonicity of rounding (`drawn_within`), distances by induction over the steps (`drawn_above`, `drawn_below`) |
| C71 | `Model/Subsymbolic`, `Model/Retrieve`, `Spec/Forgetting` | limits of powers (`C71_fades`), a bound on spreading activation for a given memory (`contribution_bound`), and C22 |
| C72 | `Model/Simulation`, `Model/Procedural`, `Spec/Provenance` | an invariant of all states (`Asks`): what is queued, started, announced or reported is due to a firing (`Base`), what each process still does (`Serves`, `Fires`, by going through the generators), and that only one process goes through the cycle of the rules |
| C73, C74 | `Model/Simulation`, `Model/Modules`, `Model/Motor`, `Model/Vision`, `Spec/Provenance` | the same invariant: what a process goes on with (`Desc.kept`) and what it reports (`Act.told`) was found when a request of a rule that fired was looked at; what the functions find is then described independently (`createChunk_given`, C36_sound, C39_partial) |
| C75 | `Model/Repr` (`varval_repr`, `Chunk.__repr__`), `Model/StringSplit` | the marks found in the printed text, part by part |
| C76 | `Model/Simulation`, `Model/Modules`, `Model/Procedural`, `Spec/Tally` | bookkeeping: every process is worth the number of answers it can still give; a rule that fires brings in as much as it has requests (`Lemmas/Tally`: `Affords`, `costs_run`, `pays_procedural`); an invariant of all states (`Lemmas/Solvent`: `Solvent`) gives every waiting process and every continuation that was not taken up an account, and all accounts together with the answers so far are covered by the requests so far |
| C77 | `Model/Simulation`, `Model/Modules`, `Spec/Dates` | invariant of all states (`Lemmas/PunctualRun`: `Timely`): traces are at most `L` ahead of the clock, and every process, resumed when its event is due, keeps it so (`Lemmas/Punctual`: `Punct`, by going through the generators; `Lemmas/Dates` for what each operation writes into memory); `L` is the time for encoding, 0 without a visual buffer; counterexample by kernel evaluation |
| C78 | `Model/Simulation`, `Model/Modules`, `Spec/Storage` | refinement: the changes of state by every process, at every point, are composed of a few atomic changes (`Lemmas/Atoms`: `Atoms`, `BMove`), and a reflexive and transitive relation that contains these holds between any state and every later one (`Lemmas/Within`: `Regime`, by going through the processes); each atomic change is one of the steps of the abstract machine in `Spec/Storage` (`Lemmas/Storage`) |
| C79 | `Model/Simulation`, `Model/Procedural`, `Spec/Repertoire` | refinement, as for C78: every atomic change is one of the four kinds of steps in `Spec/Repertoire` (`Lemmas/Repertoire`); the rest by induction on sequences of steps |
| C80 | as C79 | invariant of sequences of steps without learning (`Lemmas/Repertoire`: `Ranked`), and induction on the loop over the rules; counterexamples by kernel evaluation of simulations with learning and with compilation |
| C81 | `Model/Simulation`, `Model/Simpy` | well-founded induction on a measure of three numbers compared lexicographically: selections still possible and stimuli still to come (`xs`), actions of rules still to be carried out and words PROCEDURAL in the list (`ys`), and a weighted sum over the schedule, the processes, the conditions and the requests (`fuel`); every step makes it less (`Lemmas/Wane3`: `whole_called`). Generators of modules yield at most 40 times (`Lemmas/Brief`), the weights are in `Lemmas/Lasting`, what code costs in `Lemmas/Toll`, `Lemmas/Endure`, `Lemmas/Endure2`. That selections are limited comes from C82. Functions of the code that do not yield are total functions of the model, so that they return is not part of the statement |
| C82 | `Model/Simulation`, `Spec/Pace` | induction on the reports of a simulation along the stages of the cycle of rules (`Lemmas/Pace`) |
| C83 | `Model/Simulation`, `Model/Simpy`, `Spec/Splitting` | bisimulation up to the numbers of events (`Lemmas/Twin`: `Twin`): the two simulations agree in everything but one more entry in each schedule and a one-to-one correspondence of event numbers. All code respects it (`Lemmas/Twin2`), and so do steps (`Lemmas/Twin3`); the correspondence is shifted when the first call is stopped and the next begins (`Lemmas/Twin4`, `Lemmas/Twin5`). States after exceptions are excluded, since a stop event may be left in the schedule then; `C83_step` does the same for a step before `run` |
| C84 | `Model/Simulation`, `Model/Simpy`, `Spec/Quiet` | invariant of all states (`Lemmas/Propped`: `Propped`): a process waits for an event that was triggered, or for a process that carries out a request or goes through the rules (`Stands`), or, in the environment, for a condition with such a process as a part, or it waits to be activated (`Lemmas/Leans`: `Supports`); all code keeps this, by a monotone relation between states (`Leans`). With an empty schedule only the last case remains. What comes after is direct from the definitions |
| C85 | `Model/Simulation`, `Model/Simpy`, `Spec/Service` | invariant (`Lemmas/Firm`: `Firm`): the process of a module is at one of its own places and its event is untouched, or it failed, nobody took the failure over, and it is scheduled for this time; without exceptions the failure has not been dealt with, since that step would have raised it (`step_module`) |
| C86 | `Model/Copy` (buffers and their sets as objects), `Model/Buffer`, `Model/DecMem`; spec in `Spec/Copy` | invariant over programs (`Lemmas/Copy`: `OwnSets`): no two buffers have the same set, no memory has a key twice; each method does to the content of its buffer what it does to a buffer alone (`moved_step`), so C86_alike is a simulation; refuted for the memory and the settings of a copied buffer |
| C87 | `Model/Gui`, `Model/Stepping`; spec in `Spec/Gui` (`List.destutter` of Mathlib) | invariant of the loop (`Watches`): what has been printed is the trace with repetitions left out, `__last_event` is its last element, the sleeping times sum up to `old_time`; each step reports at most one event (`reports_step`) and the clock does not go back (C42); refuted by a simulation in which an event is repeated |
| C88 | `Model/Simulation`; spec in `Spec/Misuse` | no pure function and no generator raises RuntimeError (`Lemmas/Blameless`, `Hush`, for any exception that is not one of theirs); without environment the code that calls, interrupts and notifies looks first whether the event has been triggered, and the process that it interrupts has ended only if a module has (`Lemmas/Docile`: `Docile`, `Sooths`); invariant `Condoned`: if any event has failed with RuntimeError, the process of a module has failed with something else; invariant `Fore` (`Lemmas/Foremost`): until that is raised, whatever has failed with RuntimeError is behind it in the schedule |
| C89 | `Model/ActrModel`; spec in `Spec/Accessors` | induction on the calls: all methods but `set_goal` keep the dictionary of goals, a simulation adds objects at the end and writes only the names it uses itself and those of visual buffers (`sim_stands`). Refuted in full: after `set_retrieval("g")` rules use the retrieval buffer, but `model.goal` is still the goal buffer (`C89_refuted`) |
| C90 | `Model/Simulation`, `Model/ChunkType`; spec in `Spec/Types` | `createChunk` keeps types and slots (`typesKept_create`: the names given to `chunktype` contain all slots of the old type), and the simulation stays within what every part of every generator stays within (`Lemmas/Within`, `Lemmas/Atoms`). Simplification: the chunks that compilation creates do not change the types of the model (`mkChunk`) |
| C91 | `Model/Show`, `Model/ChunkType`, `Model/Repr`; spec in `Spec/Show` | from the slots of a new chunk (`createChunk_given`, `createChunk_cases`) and reading of texts (`C75_reading`). Refuted for slots with the name of an attribute of chunks: chunks are sequences, so that `show("count")` prints a method (`C91_refuted`) |
| C92 | `Model/Simulation`, `Model/Machine`; spec in `Spec/Layout` | the relation holds for each of the few things that are done (`Lemmas/Atoms`), so simulations stay within it (`Lemmas/Within`). That a method called by a rule keeps the class of a buffer is part of the model; that it keeps the memory is assumed |
| C93 | `Model/Simulation`, `Model/Procedural`, `Model/Machine`; spec in `Spec/Credit` | what generators yield (`Lemmas/Credit`: processes of modules from what they yield and what they leave alone, the rules from the check of the name in `update`), and an invariant of lists of processes, continuations, waiting processes and the trace (`Lemmas/Credited`) |
| C94 | `Model/Modules`, `Model/Simulation`; spec in `Spec/Credit` | the same invariant as for C93, with the kinds of buffers: the class that `retrieveorset` looks at is the one at the beginning (`Confined.shape`), continuations and automatic processes keep it (`Suits`); keys from who leaves them alone (`Lemmas/Handsoff`) |
