{
 "claims": [
  {
   "property": "C01",
   "status": "proved",
   "theorems": [
    "Verif.Props.C01_eq_iff_content",
    "Verif.Props.C01_eq_iff_same_slots",
    "Verif.Props.C01_equivalence"
   ],
   "note": "Content is compared through hashes; the 'only if' direction assumes collision-free hashes, as the statement says."
  },
  {
   "property": "C02",
   "status": "partial",
   "theorems": [
    "Verif.Props.C02_partial",
    "Verif.Props.C02_refuted"
   ],
   "note": "Exact for all patterns except one corner, where it is refuted (C02_refuted): literal 'None' required of a slot the chunk does not have."
  },
  {
   "property": "C03",
   "status": "partial",
   "theorems": [
    "Verif.Props.C03_sound_partial",
    "Verif.Props.C03_complete",
    "Verif.Props.C03_multichar",
    "Verif.Props.C03_refuted"
   ],
   "note": "Soundness is refuted in full (C03_refuted: multi-letter variables whose letters are bound variables) and proved under ShortcutSafe and NoneFilled, also for slots the chunk does not have if 'None' does not occur as a value; completeness is proved."
  },
  {
   "property": "C04",
   "status": "partial",
   "theorems": [
    "Verif.Props.C04_partial",
    "Verif.Props.C04_refuted"
   ],
   "note": "Refuted when None, 'None' and the empty value meet (C04_refuted); proved for every domain of values without both None and 'None', including slots the chunk does not have, under the restrictions of C03."
  },
  {
   "property": "C05",
   "status": "proved",
   "theorems": [
    "Verif.Props.C05_types_invisible",
    "Verif.Props.C05_eq_hash",
    "Verif.Props.C05_match_nested",
    "Verif.Props.C05_retrieve",
    "Verif.Props.C05_isa"
   ],
   "note": "At any nesting depth: C05_types_invisible and C05_eq_hash for == and the hash, C05_match_nested for ==, <=, < and partial matching, C05_retrieve for retrieval with and without subsymbolic computation, C05_isa for requests that differ only in isa (they ask for the same whenever both types can be used)."
  },
  {
   "property": "C06",
   "status": "proved",
   "theorems": [
    "Verif.Props.C06_preorder"
   ],
   "note": ""
  },
  {
   "property": "C07",
   "status": "proved",
   "theorems": [
    "Verif.Props.C07_never_rejects",
    "Verif.Props.C07_exact_zero",
    "Verif.Props.C07_score",
    "Verif.Props.C07_nonpos",
    "Verif.Props.C07_zero_iff",
    "Verif.Props.C07_more_constraints"
   ],
   "note": ""
  },
  {
   "property": "C08",
   "status": "proved",
   "theorems": [
    "Verif.Props.C08_last_write",
    "Verif.Props.C08_symmetric",
    "Verif.Props.C08_nonpositive"
   ],
   "note": "For plain values (chunks without variables or negations) under collision-free hashes."
  },
  {
   "property": "C09",
   "status": "proved",
   "theorems": [
    "Verif.Props.C09_slots",
    "Verif.Props.C09_success",
    "Verif.Props.C09_failure"
   ],
   "note": "For every registry reachable by chunktype/Chunk calls; which names namedtuple accepts is a parameter."
  },
  {
   "property": "C10",
   "status": "partial",
   "theorems": [
    "Verif.Props.C10_refuted",
    "Verif.Props.C10_partial"
   ],
   "note": "All but the claim that a slot named isa is rejected, which is refuted (C10_refuted: the check compares names that already end in an underscore)."
  },
  {
   "property": "C11",
   "status": "proved",
   "theorems": [
    "Verif.Props.C11_parts",
    "Verif.Props.C11_plain"
   ],
   "note": "Python's regular-expression search is modelled on character lists; names contain no =, !, ~ or line break."
  },
  {
   "property": "C12",
   "status": "partial",
   "theorems": [
    "Verif.Props.C12_conflict",
    "Verif.Props.C12_collect_partial",
    "Verif.Props.C12_chunk_partial",
    "Verif.Props.C12_refuted"
   ],
   "note": "From the token list delivered by pyparsing on. Refuted when isa names an existing chunk (C12_refuted); the spelling ISA is excluded in the partial theorems."
  },
  {
   "property": "C13",
   "status": "partial",
   "theorems": [
    "Verif.Props.C13_blank",
    "Verif.Props.C13_refuted",
    "Verif.Props.C13_negated",
    "Verif.Props.C13_relation",
    "Verif.Props.C13_partial"
   ],
   "note": "Refuted (C13_refuted; C13_blank, C13_negated, C13_relation describe the failing cases exactly); proved for all ordinary descriptions and bindings."
  },
  {
   "property": "C14",
   "status": "partial",
   "theorems": [
    "Verif.Props.C14_never",
    "Verif.Props.C14_refuted"
   ],
   "note": "Refuted: C14_never shows that such a request raises ACTRError for every binding. Nothing of the positive claim is left to prove."
  },
  {
   "property": "C15",
   "status": "proved",
   "theorems": [
    "Verif.Props.C15_atMostOne"
   ],
   "note": "For every kind of buffer and every history of operations, failing ones included."
  },
  {
   "property": "C16",
   "status": "partial",
   "theorems": [
    "Verif.Props.C16_failure",
    "Verif.Props.C16_empty",
    "Verif.Props.C16_refuted",
    "Verif.Props.C16_partial",
    "Verif.Props.C16_success"
   ],
   "note": "Successful modifications are proved (with a criterion for success); refuted for failing ones: C16_failure shows that they always empty the buffer."
  },
  {
   "property": "C17",
   "status": "partial",
   "theorems": [
    "Verif.Props.C17_refuted",
    "Verif.Props.C17_clear",
    "Verif.Props.C17_overwrite",
    "Verif.Props.C17_nomemory",
    "Verif.Props.C17_partial"
   ],
   "note": "Clearing, overwriting and histories of retrieval and visual buffers are proved; refuted for goals, which lose a chunk when another is added."
  },
  {
   "property": "C18",
   "status": "partial",
   "theorems": [
    "Verif.Props.C18_refuted",
    "Verif.Props.C18_tuple",
    "Verif.Props.C18_partial"
   ],
   "note": "Refuted as stated: collections of times are stored unrounded (C18_refuted), and hashable iterables of chunks are rejected (C18_tuple). Proved for all other histories."
  },
  {
   "property": "C19",
   "status": "partial",
   "theorems": [
    "Verif.Props.C19_refuted",
    "Verif.Props.C19_fails_iff",
    "Verif.Props.C19_partial",
    "Verif.Props.C19_mapping"
   ],
   "note": "Refuted for collections whose first chunk has exactly two slots (C19_refuted, C19_fails_iff); proved for all other collections and for mappings."
  },
  {
   "property": "C20",
   "status": "partial",
   "theorems": [
    "Verif.Props.C20_partial",
    "Verif.Props.C20_stays",
    "Verif.Props.C20_computed",
    "Verif.Props.C20_refuted"
   ],
   "note": "Refuted with deletions (C20_refuted). Proved for all histories of additions and look-ups and all values except the empty string and chunks without content, for which the exact count is given as well."
  },
  {
   "property": "C21",
   "status": "proved",
   "theorems": [
    "Verif.Props.C21_matching",
    "Verif.Props.C21_retrieval",
    "Verif.Props.C21_success"
   ],
   "note": "C21_matching for every request, with matching as implemented (see C02); C21_retrieval declaratively for requests within C13; C21_success tells when no exception is raised (a matching chunk stored with an empty collection of times is an IndexError)."
  },
  {
   "property": "C22",
   "status": "partial",
   "theorems": [
    "Verif.Props.C22_partial",
    "Verif.Props.C22_success",
    "Verif.Props.C22_matches",
    "Verif.Props.C22_refuted"
   ],
   "note": "Refuted for the latency of chunks without slots (C22_refuted). Everything else is proved for all noise draws and for memories reachable without deletions; C22_success tells when no exception is raised."
  },
  {
   "property": "C23",
   "status": "proved",
   "theorems": [
    "Verif.Props.C23_window",
    "Verif.Props.C23_recently",
    "Verif.Props.C23_failures",
    "Verif.Props.C23_refuted_strict"
   ],
   "note": "Failed retrievals count among the last n and push chunks out (C23_failures, C23_refuted_strict)."
  },
  {
   "property": "C24",
   "status": "proved",
   "theorems": [
    "Verif.Props.C24_formula",
    "Verif.Props.C24_practice",
    "Verif.Props.C24_forgetting",
    "Verif.Props.C24_recency"
   ],
   "note": "Plain base-level learning over real arithmetic; floating-point rounding is not modelled."
  },
  {
   "property": "C25",
   "status": "partial",
   "theorems": [
    "Verif.Props.C25_twice",
    "Verif.Props.C25_optimized",
    "Verif.Props.C25_refuted",
    "Verif.Props.C25_partial"
   ],
   "note": "Refuted: two traces at the current instant raise RuntimeWarning (C25_twice), optimized learning raises ValueError (C25_optimized). Proved for plain learning with at most one such trace."
  },
  {
   "property": "C26",
   "status": "proved",
   "theorems": [
    "Verif.Props.C26_latency"
   ],
   "note": "Over real arithmetic."
  },
  {
   "property": "C27",
   "status": "proved",
   "theorems": [
    "Verif.Props.C27_spreading",
    "Verif.Props.C27_unrelated",
    "Verif.Props.C27_unknown"
   ],
   "note": "For every memory reachable by additions and look-ups; slots with blank values do not count towards the fan."
  },
  {
   "property": "C28",
   "status": "partial",
   "theorems": [
    "Verif.Props.C28_partial",
    "Verif.Props.C28_order_partial",
    "Verif.Props.C28_total",
    "Verif.Props.C28_refuted"
   ],
   "note": "Refuted in full: a negated variable named like a buffer tested later is ignored (C28_refuted). Proved, with uniqueness of the assignment and independence of the order of conditions, for rules with safe variable names; testing is a function of the buffers and changes none. C28_total: no exceptions for well-formed rules."
  },
  {
   "property": "C29",
   "status": "partial",
   "theorems": [
    "Verif.Props.C29_partial",
    "Verif.Props.C29_first",
    "Verif.Props.C29_initial",
    "Verif.Props.C29_refuted"
   ],
   "note": "Refuted in full: without noise the order of rules is that of the initial utilities (C29_refuted). Proved with noise for every order, and without noise while the order agrees with the utilities."
  },
  {
   "property": "C30",
   "status": "partial",
   "theorems": [
    "Verif.Props.C30_partial",
    "Verif.Props.C30_uncompiled",
    "Verif.Props.C30_refuted",
    "Verif.Props.C30_unchanged",
    "Verif.Props.C30_meaning_partial",
    "Verif.Props.C30_outcome",
    "Verif.Props.C30_outcome_exact",
    "Verif.Props.C30_settled",
    "Verif.Props.C30_run",
    "Verif.Props.C30_times_partial",
    "Verif.Props.C30_exact_partial"
   ],
   "note": "C30_partial: in every run of the procedural process one selection is made, followed by exactly one outcome (fired, stopped because the conditions no longer hold, or nothing found), whatever others do meanwhile as long as they leave the process's own variables alone; C30_meaning_partial gives the meaning of the outcomes; C30_unchanged: an undisturbed selection fires; C30_uncompiled: the full statement without compilation. C30_times_partial: in every reachable state of every simulation the outcome of a rule is reported rule_firing after its selection (to four decimals), and that there is no rule at the time of conflict resolution; C30_exact_partial: exactly, if rule_firing has at most four decimals. C30_outcome (and C30_outcome_exact, C30_run for calls of run, C30_settled when nothing is left to do): as long as no exception has been raised, no selected rule is left without its outcome once the clock has gone past that time, whatever the other processes do. C30_refuted: compilation of the two rules used last can raise after a selection."
  },
  {
   "property": "C31",
   "status": "partial",
   "theorems": [
    "Verif.Props.C31_partial",
    "Verif.Props.C31_unmixed",
    "Verif.Props.C31_refuted"
   ],
   "note": "C31_partial: in every run the actions are sorted as documented, once each, those carried out at once are reported in this order and requests are queued in this order; C31_unmixed: the full statement for rules that do not both clear and request. C31_refuted: clearings are carried out before queued requests start."
  },
  {
   "property": "C32",
   "status": "partial",
   "theorems": [
    "Verif.Props.C32_partial",
    "Verif.Props.C32_clears",
    "Verif.Props.C32_refuted"
   ],
   "note": "C32_partial: for every tested rule and every undisturbed run, exactly the tested and otherwise unused buffers are queued for clearing, if no variable is named like an untested buffer; C32_clears: a queued clearing empties the buffer. C32_refuted: a variable named like a buffer has that buffer cleared."
  },
  {
   "property": "C33",
   "status": "partial",
   "theorems": [
    "Verif.Props.C33_firing",
    "Verif.Props.C33_compiled",
    "Verif.Props.C33_partial",
    "Verif.Props.C33_unstopped",
    "Verif.Props.C33_refuted",
    "Verif.Props.C33_update",
    "Verif.Props.C33_contract",
    "Verif.Props.C33_record"
   ],
   "note": "C33_update, C33_contract and C33_record cover one reward, C33_firing the moment of firing in any run, C33_partial whole histories of cycles with other processes in between, and C33_compiled such histories when rules are compiled as well. Refuted as stated: a rule that was selected but stopped from firing counts as used and is rewarded later (C33_refuted); C33_unstopped is the full statement for histories in which no rule is stopped."
  },
  {
   "property": "C34",
   "status": "partial",
   "theorems": [
    "Verif.Props.C34_partial",
    "Verif.Props.C34_refuted"
   ],
   "note": "C34_partial: every request for a key of the keyboard to a motor buffer at rest, undisturbed, is carried out with the documented events at the documented distances; preparation is never negative, 0 for a repeated key, as documented for a first key and for a key of the same hand and style. C34_refuted: for all other keys the code also subtracts 100 ms (e.g. A then J)."
  },
  {
   "property": "C35",
   "status": "partial",
   "theorems": [
    "Verif.Props.C35_partial",
    "Verif.Props.C35_refuted"
   ],
   "note": "C35_partial: any number of presses asked for in batches (the first at rest, the others before any of the batch has finished) never overlap, for all schedules. C35_refuted: when the first of two movements ends it erases the end of the second, and a third press then overlaps the second."
  },
  {
   "property": "C36",
   "status": "partial",
   "theorems": [
    "Verif.Props.C36_cases",
    "Verif.Props.C36_partial",
    "Verif.Props.C36_sound",
    "Verif.Props.C36_extra",
    "Verif.Props.C36_refuted"
   ],
   "note": "Refuted in full: a request without a command raises AttributeError (C36_refuted); C36_cases lists all outcomes, C36_extra other slots (TypeError). Proved for requests that give a command and a key, and soundness of acceptance for all."
  },
  {
   "property": "C37",
   "status": "partial",
   "theorems": [
    "Verif.Props.C37_partial",
    "Verif.Props.C37_refuted",
    "Verif.Props.C37_default"
   ],
   "note": "Refuted: one stimulus and trigger with several times is rejected (C37_refuted), and so is the default trigger (C37_default). Everything else is proved for all runs in which no key press intervenes."
  },
  {
   "property": "C38",
   "status": "partial",
   "theorems": [
    "Verif.Props.C38_mirrored",
    "Verif.Props.C38_partial",
    "Verif.Props.C38_refuted"
   ],
   "note": "Refuted: start_time is subtracted (C38_refuted, C38_mirrored); proved for start_time = 0."
  },
  {
   "property": "C39",
   "status": "partial",
   "theorems": [
    "Verif.Props.C39_partial",
    "Verif.Props.C39_ends",
    "Verif.Props.C39_refuted",
    "Verif.Props.C39_finst"
   ],
   "note": "C39_partial: for every screen and request without negations in which every slot mentioned demands something, objects without externally visible attributes, a search that returns has found an object satisfying value, position, relative position and attendedness whenever there is one, reports exactly this object, and no satisfying object is better (Pareto sense over the criteria asked for: lowest, highest, closest, onewayclosest). C39_ends: it returns whenever positions, texts and numbers are there. C39_refuted: 'closest' on screen_y alone is ignored. C39_finst: with finst = 0 attended is ignored."
  },
  {
   "property": "C40",
   "status": "partial",
   "theorems": [
    "Verif.Props.C40_search",
    "Verif.Props.C40_refuted",
    "Verif.Props.C40_partial",
    "Verif.Props.C40_remembers",
    "Verif.Props.C40_ends"
   ],
   "note": "C40_search: for all screens, foci and memories, automatic search returns the closest unattended object or nothing if there is none; C40_ends: it returns. C40_partial adds that no more than finst objects are remembered for all histories in which finst is not changed; C40_refuted: lowering finst leaves too many. C40_remembers: the object attended last is remembered."
  },
  {
   "property": "C41",
   "status": "partial",
   "theorems": [
    "Verif.Props.C41_partial",
    "Verif.Props.C41_refuted"
   ],
   "note": "C41_partial: for all times and all states of the model, events are in order, there is exactly one encoding and one eye movement, and the object ends up in the buffer; encoding ends at the encoding time if the eye is still under way. C41_refuted: otherwise (EMMA) the remaining share is applied to a newly computed encoding time. What is shown is for a shift carried out without interference with its buffer."
  },
  {
   "property": "C42",
   "status": "proved",
   "theorems": [
    "Verif.Props.C42",
    "Verif.Props.C42_clock"
   ],
   "note": "For all models, environments, initial times, schedules and interruptions, in every state reachable by steps and calls of run, also after exceptions; simulations that are not in real time."
  },
  {
   "property": "C43",
   "status": "proved",
   "theorems": [
    "Verif.Props.C43"
   ],
   "note": "In every reachable state; the last cycle may be incomplete. With compilation switched on, its report may come before the rule fires. The selected rule is the one that fires or is stopped."
  },
  {
   "property": "C44",
   "status": "partial",
   "theorems": [
    "Verif.Props.C44_partial",
    "Verif.Props.C44_search",
    "Verif.Props.C44_idle",
    "Verif.Props.C44_refuted",
    "Verif.Props.C44_immediate"
   ],
   "note": "C44_partial: all processes except automatic searches and visual requests that report nothing leave their buffer at rest, in state error exactly if nothing (or a chunk without slots) was found; C44_immediate: actions carried out at once leave it free. C44_refuted, C44_search: an automatic search leaves its buffer busy; C44_idle: so does a visual request with the command 'None'."
  },
  {
   "property": "C45",
   "status": "partial",
   "theorems": [
    "Verif.Props.C45_refuted",
    "Verif.Props.C45_request_partial",
    "Verif.Props.C45_partial",
    "Verif.Props.C45_end_partial",
    "Verif.Props.C45_next_partial",
    "Verif.Props.C45_soon_partial"
   ],
   "note": "The full statement fails: a motor command that is past its preparation is carried out although a later command was accepted (C45_refuted). Proved for all reachable states: once the process of a module that waits for a request is interrupted, the process of the old request never does anything again, whatever happens later, and ends without changing buffers or memories and without a report; a new request to a module busy with an interruptible one interrupts the process of the module at once; the interrupted process starts the next request in the list (C45_next_partial), and C45_soon_partial: in every run it does so before the clock goes on. Missing: requests whose process goes on as a continuation, for which the claim is false."
  },
  {
   "property": "C46",
   "status": "partial",
   "theorems": [
    "Verif.Props.C46_refuted",
    "Verif.Props.C46_partial",
    "Verif.Props.C46_calls_partial"
   ],
   "note": "Refuted: the argument of run is the time on the clock at which it ends, so run(3) is refused in a simulation that starts at 5 s (C46_refuted). C46_partial: run(t) is refused without effect if the clock has reached t, otherwise the clock advances to at most t; C46_calls_partial: calls that succeed have increasing times and the clock then shows the last."
  },
  {
   "property": "C47",
   "status": "partial",
   "theorems": [
    "Verif.Props.C47_hands_partial",
    "Verif.Props.C47_refuted",
    "Verif.Props.C47_partial",
    "Verif.Props.C47_ready_partial",
    "Verif.Props.C47_press_partial",
    "Verif.Props.C47_advance_partial"
   ],
   "note": "Refuted: the second matching press after the last stimulus raises RuntimeError (C47_refuted). C47_partial: presses that match no trigger are ignored. C47_press_partial: in every reachable state in which the environment waits and nothing it waits for is due at this moment, a process that reports a press goes on, the pressed keys are forgotten, and the environment is told if and only if the key is a trigger. C47_ready_partial: a waiting environment that was told is resumed before the clock moves on. C47_advance_partial: when it is resumed and the stimulus has not ended, it prepares a new event, ends the stimulus and goes on. C47_hands_partial: in models without motor buffers, every process that reports an event goes on, in all states. Missing because false: a second press at the same moment, a press at the moment the stimulus ends, and presses after the last stimulus."
  },
  {
   "property": "C48",
   "status": "partial",
   "theorems": [
    "Verif.Props.C48_partial",
    "Verif.Props.C48_unlearned",
    "Verif.Props.C48_learned",
    "Verif.Props.C48_recompile",
    "Verif.Props.C48_refuted"
   ],
   "note": "C48_partial: for all rule sets and pairs, compilation is blocked, raises and changes nothing, adds exactly one rule under a fresh name, or finds an equal rule (Python ==) and changes at most its utility (C48_learned, C48_unlearned); C48_recompile: compiling the same rules again at any later time adds no rule. C48_refuted: after a failed retrieval that the second rule does not test, compile_rules raises TypeError. Chunk == ignores chunk types (C01)."
  },
  {
   "property": "C49",
   "status": "partial",
   "theorems": [
    "Verif.Props.C49_partial",
    "Verif.Props.C49_refuted",
    "Verif.Props.C49_clash_compiled",
    "Verif.Props.C49_rule_partial"
   ],
   "note": "C49_partial and C49_rule_partial: every variable of the second rule is renamed, injectively, to a name ending in the rule's name, nothing else changes, for all rules, as long as the variables in use do not begin with '='. C49_refuted, C49_clash_compiled: clashes are never detected."
  },
  {
   "property": "C50",
   "status": "partial",
   "theorems": [
    "Verif.Props.C50_partial",
    "Verif.Props.C50_only",
    "Verif.Props.C50_refuted"
   ],
   "note": "C50_partial: all listed cases block compilation, where a query of a retrieval for an error counts if nothing else is asked; C50_only: nothing else does, except a retrieved chunk still in its buffer. C50_refuted: a query for an error and an empty buffer is not blocked."
  },
  {
   "property": "C51",
   "status": "partial",
   "theorems": [
    "Verif.Props.C51_decmem",
    "Verif.Props.C51_only",
    "Verif.Props.C51_memories",
    "Verif.Props.C51_names",
    "Verif.Props.C51_partial",
    "Verif.Props.C51_buffers",
    "Verif.Props.C51_refuted",
    "Verif.Props.C51_visual_refuted"
   ],
   "note": "Refuted for the motor buffer and for visual buffers created by hand (C51_refuted, C51_visual_refuted). Proved for the decmem property, for all goal and retrieval buffers and the default visual ones. C51_only and C51_memories say what the property shows in any state whatever, C51_names that set_decmem never gives another name than decmem."
  },
  {
   "property": "C52",
   "status": "proved",
   "theorems": [
    "Verif.Props.C52"
   ],
   "note": "Keyword arguments have distinct string names, as Python guarantees."
  },
  {
   "property": "C53",
   "status": "proved",
   "theorems": [
    "Verif.Props.C53_buffers",
    "Verif.Props.C53_rules"
   ],
   "note": "For all processes, states and interferences."
  },
  {
   "property": "C54",
   "status": "proved",
   "theorems": [
    "Verif.Props.C54_rule",
    "Verif.Props.C54_nothing_else",
    "Verif.Props.C54_refused",
    "Verif.Props.C54_unique",
    "Verif.Props.C54_chunk",
    "Verif.Props.C54_chunk_else"
   ],
   "note": "Relative to the model of the pyparsing elements used (trusted base). In the documented form there is white space between words; soundness allows it to be missing. A ParseException of chunkstring is not turned into an ACTRError."
  },
  {
   "property": "C55",
   "status": "partial",
   "theorems": [
    "Verif.Props.C55_refuted",
    "Verif.Props.C55_partial",
    "Verif.Props.C55_words"
   ],
   "note": "Refuted: of two tests, queries or actions with the same sign and buffer only the last one counts (C55_refuted). C55_partial: for all rules without such repetitions the entries are exactly those written, provided that no value is the word unnamedchunk (every chunk made by a rule is registered under this name), ISA is not used for isa, quotes after operators come in pairs (C55_words), and named chunks that are used contain no variables."
  },
  {
   "property": "C56",
   "status": "partial",
   "theorems": [
    "Verif.Props.C56_nameless",
    "Verif.Props.C56_refuted",
    "Verif.Props.C56_partial"
   ],
   "note": "Refuted: without a name every call raises TypeError, a string being added to a number (C56_refuted, C56_nameless). C56_partial: with a name all of it holds."
  },
  {
   "property": "C57",
   "status": "partial",
   "theorems": [
    "Verif.Props.C57_partial",
    "Verif.Props.C57_one_partial",
    "Verif.Props.C57_last",
    "Verif.Props.C57_steps_partial",
    "Verif.Props.C57_start_partial",
    "Verif.Props.C57_exhausted",
    "Verif.Props.C57_returns",
    "Verif.Props.C57_ends",
    "Verif.Props.C57_after_run",
    "Verif.Props.C57_refuted",
    "Verif.Props.C57_repeated"
   ],
   "note": "Refuted: after run, step returns without a report (C57_after_run, C57_refuted); an event that is reported twice in a row is passed over by one call (C57_repeated). Partial: if nothing was reported since step last returned, only repetitions are passed over; without repetitions exactly one event per call, and n for steps(n); the call returns if another event is to come (C57_returns) and raises EmptySchedule otherwise (C57_ends)."
  },
  {
   "property": "C58",
   "status": "partial",
   "theorems": [
    "Verif.Props.C58_angle",
    "Verif.Props.C58_angle_symmetric",
    "Verif.Props.C58_distance",
    "Verif.Props.C58_partial",
    "Verif.Props.C58_refuted",
    "Verif.Props.C58_farther",
    "Verif.Props.C58_times",
    "Verif.Props.C58_clock",
    "Verif.Props.C58_buffering"
   ],
   "note": "C58_refuted: encoding depends on the angle in radians, not degrees; everything else as documented: C58_partial, C58_angle, C58_distance, C58_farther, C58_times, C58_clock, C58_buffering. Real numbers instead of floats."
  },
  {
   "property": "C59",
   "status": "partial",
   "theorems": [
    "Verif.Props.C59_partial",
    "Verif.Props.C59_refuted"
   ],
   "note": "C59_refuted: the region is a square, so that objects at its corners are more than a degree away; C59_partial bounds the angle and proves that objects in the fovea are not missed."
  },
  {
   "property": "C60",
   "status": "proved",
   "theorems": [
    "Verif.Props.C60_uninterrupted",
    "Verif.Props.C60_rules",
    "Verif.Props.C60",
    "Verif.Props.C60_trace",
    "Verif.Props.C60_kept",
    "Verif.Props.C60_reported"
   ],
   "note": "C60 for one step, C60_kept and C60_reported for all continuations of reachable states, C60_trace that reports stay. C60_uninterrupted, C60_rules: what is announced about rules is always reported, as the process of the rules is never interrupted. Other events are reported unless their process is interrupted; events that carry nothing are not reported by the code."
  },
  {
   "property": "C61",
   "status": "partial",
   "theorems": [
    "Verif.Props.C61_partial",
    "Verif.Props.C61_end",
    "Verif.Props.C61_now",
    "Verif.Props.C61_refuted"
   ],
   "note": "C61_refuted: the event that activates the rules is replaced at the end of a cycle without a rule, and activations that came after rules were tried are lost, so a simulation can end although a rule matches. C61_partial, C61_now: at every time at which modules reported something rules are tried, unless a rule is under way; C61_end: also at the end of the simulation. Missing: that they are tried after the last report of that time."
  },
  {
   "property": "C62",
   "status": "proved",
   "theorems": [
    "Verif.Props.C62",
    "Verif.Props.C62_run",
    "Verif.Props.C62_returned"
   ],
   "note": "C62 for all continuations (steps, calls of run, other exceptions), C62_run and C62_returned for calls of run. simpy.Interrupt, with which pyactr pre-empts modules, is excepted: it is meant to be caught."
  },
  {
   "property": "C63",
   "status": "partial",
   "theorems": [
    "Verif.Props.C63_refuted",
    "Verif.Props.C63_partial",
    "Verif.Props.C63_idle_partial",
    "Verif.Props.C63_goesOn_partial",
    "Verif.Props.C63_helper_partial",
    "Verif.Props.C63_only_partial",
    "Verif.Props.C63_raised_partial",
    "Verif.Props.C63_run_partial",
    "Verif.Props.C63_soon_partial"
   ],
   "note": "C63_refuted: if the environment changes at the moment at which a rule asks for a location, it calls the idle module and the rule then interrupts it, while it waits outside the try statement (simulation.py:161), and simpy.Interrupt is raised out of run. C63_partial: only modules that were called but have not begun to work can fail by an interruption; C63_idle_partial: they always do. C63_goesOn_partial: modules that work always go on with their first waiting request at once; C63_helper_partial: processes of requests and of the environment end quietly; C63_soon_partial: every interruption is carried out before the clock goes on. C63_only_partial: provided that methods and rules do not raise simpy.Interrupt themselves, no other process ever fails with it; C63_raised_partial, C63_run_partial: hence step and run raise it only after a module that was called but had not begun to work has been interrupted. Missing: that modules named P go on."
  },
  {
   "property": "C64",
   "status": "partial",
   "theorems": [
    "Verif.Props.C64_refuted",
    "Verif.Props.C64_partial",
    "Verif.Props.C64_rules_partial",
    "Verif.Props.C64_waits_partial",
    "Verif.Props.C64_idle_partial",
    "Verif.Props.C64_taken_partial"
   ],
   "note": "C64_refuted: when the first cycle of the rules is over, the simulation replaces its own list of requests by that of the rules (simulation.py:231); a request for an automatic search which the environment made at the same moment is lost. C64_partial: in every other step the requests for each module stay in line, new ones come last, and only the first one is taken away, by its module, whose new process carries it out. C64_rules_partial: for the list of the rules this holds in every step; C64_waits_partial: hence each request of a rule waits behind at most those before it until it is taken up. C64_idle_partial: when the clock is about to go on, no request waits for an idle module (first simulation of a model, no exception so far). C64_taken_partial: when nothing is left to happen and no exception was raised, each request of a rule was taken up. Not claimed: requests for a module whose process has failed (see C63, C85) wait for ever, and a rule can keep pre-empting a module that has older requests."
  },
  {
   "property": "C65",
   "status": "partial",
   "theorems": [
    "Verif.Props.C65_partial",
    "Verif.Props.C65_rules_partial",
    "Verif.Props.C65_refuted",
    "Verif.Props.C65_types_refuted"
   ],
   "note": "C65_refuted: if both rules query the same attribute of a buffer that the first one does not act upon, the compiled rule asks what the second one asks (the dictionary is updated, productions.py:185), so it fires while the hand is free although the first rule fires only while it is busy. C65_types_refuted: if the rules test a buffer for different types, slots that only the first one tests are dropped. C65_partial: for rules that do not ask different things and whose second test has the slots of the first one, every assignment that makes the compiled rule's conditions true yields one for the first rule. C65_rules_partial: the same for the rule set and for the success of the tests that the code makes (C28)."
  },
  {
   "property": "C66",
   "status": "partial",
   "theorems": [
    "Verif.Props.C66_partial",
    "Verif.Props.C66_refuted"
   ],
   "note": "C66_refuted: a slot that both rules test is only tested as in the first rule, even if it does not change the buffer (merge_chunkparts, utilities.py:229-245). C66_partial: all conditions on slots that the first rule does not test, in buffers other than the one it retrieves to, and queries of buffers that it does not act upon hold under one assignment."
  },
  {
   "property": "C67",
   "status": "partial",
   "theorems": [
    "Verif.Props.C67_partial",
    "Verif.Props.C67_refuted",
    "Verif.Props.C67_vars_refuted"
   ],
   "note": "C67_refuted: if both rules test a slot and neither sets it, the compiled rule tests it only as the first one does (merge_chunkparts, utilities.py:229-245), so it fires where the second rule could not. C67_vars_refuted: a variable of the second rule that is tied to one of the first in one slot and occurs in another test is not tied there: each slot overwrites the dictionary of matched variables (utilities.py:325-332), and the compiled rule does not compare the two slots. C67_partial: for all rules that fit together (FitTogether) the compiled rule fires only if the two rules can fire one after the other with the same result. Missing: negations in tests of what the first rule set, variables of such tests in several slots, and actions other than modifications. The converse is C69."
  },
  {
   "property": "C68",
   "status": "partial",
   "theorems": [
    "Verif.Props.C68_partial",
    "Verif.Props.C68_compiled_partial",
    "Verif.Props.C68_refuted"
   ],
   "note": "C68_refuted: VisualLocation.modify takes its second argument for a stimulus (vision.py:66), so the values of variables do not reach the modification, and a rule that puts a variable into the buffer for visual locations raises an exception after its conditions held. C68_partial: everything for rules that do not do this. C68_compiled_partial joins C68 and C67: when a rule compiled from what was noted fires, the two rules could have fired one after the other with the same result. Missing: actions other than modifications, values that are signs of comparison, and chunks in modified buffers that lack a slot of the type in the action."
  },
  {
   "property": "C69",
   "status": "partial",
   "theorems": [
    "Verif.Props.C69_partial",
    "Verif.Props.C69_refuted"
   ],
   "note": "C69_refuted: where the second rule tests a slot that the first one sets but does not test, the compiled rule tests for the value in advance: slots known from the first rule are to be left out (productions.py:194-199), but what is recorded for a slot has no method removeunused, the AttributeError is caught, and the slot counts as unknown. So a rule that copies g to h and one that copies h to g are compiled into a rule that needs equal values in g and h. C69_partial: for pairs in which such slots are tested by the first rule too (Replaceable), the compiled rule fires whenever the two rules fire one after the other, with the same result. Missing: such slots; buffers named like variables; variables of the first rule that look like renamed ones; negations in tests of slots that neither rule sets in a buffer that both modify; modifications of a buffer with chunks of which the second lacks slots of the first; actions other than modifications."
  },
  {
   "property": "C70",
   "status": "proved",
   "theorems": [
    "Verif.Props.C70_range",
    "Verif.Props.C70_settle",
    "Verif.Props.C70_limit",
    "Verif.Props.C70_stalls",
    "Verif.Props.C70_unlearned"
   ],
   "note": "C70_range, C70_settle, C70_limit, C70_unlearned. The delayed rewards of a rule are counted for every time it was selected, also if it was stopped from firing (see C33). If rules are compiled, the statement about a single rule is for rules that do not have the name of a compiled rule. C70_stalls: the rounding term cannot be dropped."
  },
  {
   "property": "C71",
   "status": "proved",
   "theorems": [
    "Verif.Props.C71_fades",
    "Verif.Props.C71_forgotten",
    "Verif.Props.C71_fails",
    "Verif.Props.C71_noiseless",
    "Verif.Props.C71_kept",
    "Verif.Props.C71_given"
   ],
   "note": "C71_fades (base levels), C71_forgotten and C71_fails (memory, with a bound on what is added to base levels), C71_noiseless (without noise and partial matching spreading activation is bounded, so no bound is assumed), C71_kept, C71_given. With optimized learning the statement is about retrievals that return; with plain learning they do not raise (C71_fails). Chunks in memory, in buffers and among those recently retrieved are plain, the hash function is free of collisions, as in C22."
  },
  {
   "property": "C72",
   "status": "proved",
   "theorems": [
    "Verif.Props.C72_requested",
    "Verif.Props.C72"
   ],
   "note": "C72 and C72_requested. The model is assumed to be new in that no request of a rule is queued when the simulation starts. Moments are the states in which the callbacks of one event have partly been called, since a step of the simulation can run several processes. The time at which the conditions held is not compared with the time of the firing."
  },
  {
   "property": "C73",
   "status": "proved",
   "theorems": [
    "Verif.Props.C73"
   ],
   "note": "C73. The model is assumed to be new in that no process of a module is queued when the simulation starts. That the key is on the keyboard holds whatever the request is; that it is the key asked for is an implication from the assumptions of C36 about the request in the state where it is looked at."
  },
  {
   "property": "C74",
   "status": "partial",
   "theorems": [
    "Verif.Props.C74_object",
    "Verif.Props.C74_location"
   ],
   "note": "C74_object and C74_location. Proved: what is reported was asked for by a rule that fired, and was on the screen at a moment after that; chunks of objects depict them. Only under the assumptions of C13 on the slots of the request it is proved that the object was at the place asked for, and only under those of C39_partial that the location satisfies the request and that no other one was better; in the other cases C39 is wrong (C39_refuted). The text of the object is its value if it has no special characters. With EMMA, the chunk that is encoded after the eyes have moved is the one made when the request was looked at."
  },
  {
   "property": "C75",
   "status": "partial",
   "theorems": [
    "Verif.Props.C75_reading",
    "Verif.Props.C75_partial",
    "Verif.Props.C75_refuted"
   ],
   "note": "Refuted (C75_refuted): a value is printed without its mark, so that a value with a variable is read as the variable alone. C75_reading says what is read in every case; C75_partial shows that exactly the descriptions that are one value or consist of variables only are read as they were."
  },
  {
   "property": "C76",
   "status": "proved",
   "theorems": [
    "Verif.Props.C76",
    "Verif.Props.C76_firings"
   ],
   "note": "C76 and C76_firings. Nothing is requested when the simulation starts, the buffers have different names, and the movements of the eyes take no negative time (in the code, 0.07 s and more, or a draw from a gamma distribution; the computation is a parameter of the model)."
  },
  {
   "property": "C77",
   "status": "partial",
   "theorems": [
    "Verif.Props.C77_partial",
    "Verif.Props.C77_visual",
    "Verif.Props.C77_emma",
    "Verif.Props.C77_refuted"
   ],
   "note": "Refuted (C77_refuted): when a visual object is encoded, the old content of the visual buffer is put into memory at once, with the time at which the encoding will end. Proved: the claim in full for models without a visual buffer (C77_partial), and bounds with one: at most 85 ms ahead without EMMA (C77_visual, the bound is reached) and at most the longest time for encoding with EMMA (C77_emma, up to rounding, the times for preparation and execution not being negative)."
  },
  {
   "property": "C78",
   "status": "proved",
   "theorems": [
    "Verif.Props.C78_course",
    "Verif.Props.C78_remembers",
    "Verif.Props.C78_learns",
    "Verif.Props.C78_single"
   ],
   "note": "Methods that rules call with ! are a parameter of the model and may do anything to the buffer they are called on; C78_single assumes that they do not make it hold more than one chunk. Chunks are compared through hashes, as in the code: a chunk counts as met once more when its hash is known."
  },
  {
   "property": "C79",
   "status": "proved",
   "theorems": [
    "Verif.Props.C79_practice",
    "Verif.Props.C79_kept",
    "Verif.Props.C79_stems",
    "Verif.Props.C79_closed",
    "Verif.Props.C79_list",
    "Verif.Props.C79_tried"
   ],
   "note": ""
  },
  {
   "property": "C80",
   "status": "partial",
   "theorems": [
    "Verif.Props.C80_partial",
    "Verif.Props.C80_plain_partial",
    "Verif.Props.C80_first",
    "Verif.Props.C80_noisy",
    "Verif.Props.C80_compiled_refuted",
    "Verif.Props.C80_refuted"
   ],
   "note": "Refuted (C80_refuted): the order is that of the utilities at the beginning, and a rule that has become worse by learning is still tried first. Also refuted without learning (C80_compiled_refuted): a compiled rule has utility 0 but is put at the end of the list, after rules with negative utilities. Proved: the claim without learning if no utility is negative and rules named like compiled ones have utility 0 (C80_partial), without learning and compilation (C80_plain_partial), and in general that the first matching rule on a list that begins with that of the beginning is selected (C80_first). With noise (C80_noisy) the rule that is selected is the best one at the noise of its turn, in every state."
  },
  {
   "property": "C81",
   "status": "proved",
   "theorems": [
    "Verif.Props.C81",
    "Verif.Props.C81_clock"
   ],
   "note": "C81 and C81_clock. With a firing time of 0 rules fire again and again without the clock going on (example in Props/Ending). Functions of the code that do not yield are total in the model."
  },
  {
   "property": "C82",
   "status": "proved",
   "theorems": [
    "Verif.Props.C82_apart",
    "Verif.Props.C82_count",
    "Verif.Props.C82_window",
    "Verif.Props.C82_rounded"
   ],
   "note": "C82_apart, C82_count and C82_window for firing times that are multiples of 0.1 ms; C82_rounded for all others."
  },
  {
   "property": "C83",
   "status": "partial",
   "theorems": [
    "Verif.Props.C83_partial",
    "Verif.Props.C83_step",
    "Verif.Props.C83_calls",
    "Verif.Props.C83_refuted"
   ],
   "note": "Refuted (C83_refuted): compile_rules at the end of run does not forget the pair of rules, so every call of run that ends with nothing left to happen compiles them again; with learning the utility of the compiled rule is 0 after run(2), but 1 after run(1) and run(2). Proved in both directions if rules are not compiled, or if something is left to happen at t1 (C83_partial), with sameness in all further calls; C83_calls for any number of calls without compilation, C83_step for a single step before run. Missing: compilation when nothing is left to happen at t1, where the claim fails."
  },
  {
   "property": "C84",
   "status": "proved",
   "theorems": [
    "Verif.Props.C84",
    "Verif.Props.C84_rules",
    "Verif.Props.C84_requests",
    "Verif.Props.C84_forever",
    "Verif.Props.C84_run",
    "Verif.Props.C84_modules"
   ],
   "note": "C84 (also after exceptions), C84_rules, C84_requests, C84_modules, C84_forever and C84_run; that the cycles of rules are complete is C30_settled. C84_requests assumes that buffers have different names and that the simulation begins without requests, as it does in the code."
  },
  {
   "property": "C85",
   "status": "proved",
   "theorems": [
    "Verif.Props.C85",
    "Verif.Props.C85_clock",
    "Verif.Props.C85_ends",
    "Verif.Props.C85_raised"
   ],
   "note": "C85 and C85_clock for states reached without exceptions, C85_ends also after exceptions, C85_raised: it is this exception that is raised. C85 covers simpy.Interrupt, which C62 leaves out."
  },
  {
   "property": "C86",
   "status": "partial",
   "theorems": [
    "Verif.Props.C86_refuted",
    "Verif.Props.C86_settings_refuted",
    "Verif.Props.C86_memory",
    "Verif.Props.C86_partial",
    "Verif.Props.C86_alike"
   ],
   "note": "Refuted for retrieval buffers: the copy shares the memory of the original, although the comment of copy says it is copied (C86_refuted), and finst and delay are lost (C86_settings_refuted). Proved: C86_memory for memories without restriction, C86_partial (content and its independence in all later histories, which memory and settings the copy has), C86_alike (same calls, same outcome). Arrays of times are values in the model; pyactr never changes one in place."
  },
  {
   "property": "C87",
   "status": "partial",
   "theorems": [
    "Verif.Props.C87_partial",
    "Verif.Props.C87_same_partial",
    "Verif.Props.C87_follows",
    "Verif.Props.C87_sleep",
    "Verif.Props.C87_refuted"
   ],
   "note": "Refuted: an event that is the same as the one before (a rule that modifies a buffer twice) is not printed with a window (C87_refuted). Proved: C87_partial, the trace is the one without a window with repetitions left out; C87_same_partial, it is the same if no event is repeated; C87_follows, the thread gets as far as the steps do; C87_sleep, real time and how the thread ends. What is sent to the window is not modelled."
  },
  {
   "property": "C88",
   "status": "proved",
   "theorems": [
    "Verif.Props.C88_events",
    "Verif.Props.C88",
    "Verif.Props.C88_fails",
    "Verif.Props.C88_run",
    "Verif.Props.C88_first",
    "Verif.Props.C88_firstRun"
   ],
   "note": "C88 for step, C88_run for run, C88_fails and C88_events for processes and events, C88_first and C88_firstRun: neither step nor run raises it as long as no exception has been raised. Simulations with an environment are not covered by the property: there a key that is pressed after the last stimulus leads to RuntimeError (C47_refuted)."
  },
  {
   "property": "C89",
   "status": "partial",
   "theorems": [
    "Verif.Props.C89_goal",
    "Verif.Props.C89_goals",
    "Verif.Props.C89_retrieval",
    "Verif.Props.C89_retrievals",
    "Verif.Props.C89_named",
    "Verif.Props.C89_refuted",
    "Verif.Props.C89_partial"
   ],
   "note": "Refuted: when a retrieval buffer is set under the name g, model.goal still shows the goal buffer, which rules do not use any more (C89_refuted); C89_partial is the statement if no buffer of another kind is set under g. Proved without restriction: C89_goal, C89_goals, C89_retrieval, C89_retrievals (what the two properties return and when they raise) and C89_named (what names stand for)."
  },
  {
   "property": "C90",
   "status": "proved",
   "theorems": [
    "Verif.Props.C90",
    "Verif.Props.C90_wired",
    "Verif.Props.C90_sorted"
   ],
   "note": "C90 for all later states, C90_wired (the types of the modules are those of the beginning), C90_sorted. Simplification of the model: the chunks that the compilation of rules creates (Model/Compile, mkChunk) leave the types as they are; the effect of each creation is covered by typesKept_create."
  },
  {
   "property": "C91",
   "status": "partial",
   "theorems": [
    "Verif.Props.C91_partial",
    "Verif.Props.C91_chunk_partial",
    "Verif.Props.C91_other_partial",
    "Verif.Props.C91_refuted"
   ],
   "note": "Refuted: for a slot count (or index, match, typename, ...) show prints the method or attribute of the chunk (C91_refuted), because Chunk inherits from Sequence and __getattr__ is only called for names that are not found. Proved for all other names: C91_partial (texts), C91_chunk_partial (chunks as values; they have slots, since an empty chunk is printed as nothing), C91_other_partial (slots that were not given, names that are no slots)."
  },
  {
   "property": "C92",
   "status": "proved",
   "theorems": [
    "Verif.Props.C92"
   ],
   "note": "C92, for all simulations in which methods called by rules (!buffer>) do not set the memory of a buffer."
  },
  {
   "property": "C93",
   "status": "proved",
   "theorems": [
    "Verif.Props.C93",
    "Verif.Props.C93_announced",
    "Verif.Props.C93_rules",
    "Verif.Props.C93_modules"
   ],
   "note": "C93 (all reports), C93_announced (what is announced), C93_rules and C93_modules (what the name says about the report)."
  },
  {
   "property": "C94",
   "status": "proved",
   "theorems": [
    "Verif.Props.C94",
    "Verif.Props.C94_announced",
    "Verif.Props.C94_waiting",
    "Verif.Props.C94_class",
    "Verif.Props.C94_press",
    "Verif.Props.C94_keys"
   ],
   "note": "C94 (all reports), C94_announced and C94_waiting (what is announced, and what waits to be done), C94_class (names of buffers differ), C94_press (no motor buffer, no key pressed), C94_keys (and none passed on to the environment)."
  }
 ]
}