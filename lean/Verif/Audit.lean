import Verif.Props.Accessors
import Verif.Props.ActrModel
import Verif.Props.Assoc
import Verif.Props.BoundVars
import Verif.Props.Buffer
import Verif.Props.Chunk
import Verif.Props.ChunkDict
import Verif.Props.ChunkType
import Verif.Props.Compile
import Verif.Props.Converse
import Verif.Props.Copy
import Verif.Props.Credit
import Verif.Props.Cycle
import Verif.Props.Dates
import Verif.Props.DecMem
import Verif.Props.Deeds
import Verif.Props.Demand
import Verif.Props.Emma
import Verif.Props.Ending
import Verif.Props.Environment
import Verif.Props.Errors
import Verif.Props.Firing
import Verif.Props.Forgetting
import Verif.Props.Gui
import Verif.Props.Hands
import Verif.Props.Interaction
import Verif.Props.Isolation
import Verif.Props.Layout
import Verif.Props.Learning
import Verif.Props.Misuse
import Verif.Props.Motor
import Verif.Props.Moves
import Verif.Props.Outcome
import Verif.Props.Parse
import Verif.Props.Preempt
import Verif.Props.Press
import Verif.Props.Provenance
import Verif.Props.Quiet
import Verif.Props.React
import Verif.Props.Repertoire
import Verif.Props.Repr
import Verif.Props.Requests
import Verif.Props.Rest
import Verif.Props.Retrieve
import Verif.Props.Rules
import Verif.Props.Sequence
import Verif.Props.Service
import Verif.Props.Settling
import Verif.Props.Shift
import Verif.Props.Show
import Verif.Props.Similarity
import Verif.Props.Simulation
import Verif.Props.Splitting
import Verif.Props.Stepping
import Verif.Props.Storage
import Verif.Props.Strike
import Verif.Props.StringSplit
import Verif.Props.Subsymbolic
import Verif.Props.Tally
import Verif.Props.Types
import Verif.Props.Untyped
import Verif.Props.Update
import Verif.Props.Vision
import Verif.Props.Waiting
/-! Axioms of every property theorem (expected: `propext`, `Classical.choice`, `Quot.sound`). -/
#print axioms Verif.Props.C01_eq_iff_content
#print axioms Verif.Props.C01_eq_iff_same_slots
#print axioms Verif.Props.C01_equivalence
#print axioms Verif.Props.C02_partial
#print axioms Verif.Props.C02_refuted
#print axioms Verif.Props.C03_sound_partial
#print axioms Verif.Props.C03_complete
#print axioms Verif.Props.C03_multichar
#print axioms Verif.Props.C03_refuted
#print axioms Verif.Props.C04_partial
#print axioms Verif.Props.C04_refuted
#print axioms Verif.Props.C05_types_invisible
#print axioms Verif.Props.C05_eq_hash
#print axioms Verif.Props.C05_match_nested
#print axioms Verif.Props.C05_retrieve
#print axioms Verif.Props.C05_isa
#print axioms Verif.Props.C06_preorder
#print axioms Verif.Props.C07_never_rejects
#print axioms Verif.Props.C07_exact_zero
#print axioms Verif.Props.C07_score
#print axioms Verif.Props.C07_nonpos
#print axioms Verif.Props.C07_zero_iff
#print axioms Verif.Props.C07_more_constraints
#print axioms Verif.Props.C08_last_write
#print axioms Verif.Props.C08_symmetric
#print axioms Verif.Props.C08_nonpositive
#print axioms Verif.Props.C09_slots
#print axioms Verif.Props.C09_success
#print axioms Verif.Props.C09_failure
#print axioms Verif.Props.C10_refuted
#print axioms Verif.Props.C10_partial
#print axioms Verif.Props.C11_parts
#print axioms Verif.Props.C11_plain
#print axioms Verif.Props.C12_conflict
#print axioms Verif.Props.C12_collect_partial
#print axioms Verif.Props.C12_chunk_partial
#print axioms Verif.Props.C12_refuted
#print axioms Verif.Props.C13_blank
#print axioms Verif.Props.C13_refuted
#print axioms Verif.Props.C13_negated
#print axioms Verif.Props.C13_relation
#print axioms Verif.Props.C13_partial
#print axioms Verif.Props.C14_never
#print axioms Verif.Props.C14_refuted
#print axioms Verif.Props.C15_atMostOne
#print axioms Verif.Props.C16_failure
#print axioms Verif.Props.C16_empty
#print axioms Verif.Props.C16_refuted
#print axioms Verif.Props.C16_partial
#print axioms Verif.Props.C16_success
#print axioms Verif.Props.C17_refuted
#print axioms Verif.Props.C17_clear
#print axioms Verif.Props.C17_overwrite
#print axioms Verif.Props.C17_nomemory
#print axioms Verif.Props.C17_partial
#print axioms Verif.Props.C18_refuted
#print axioms Verif.Props.C18_tuple
#print axioms Verif.Props.C18_partial
#print axioms Verif.Props.C19_refuted
#print axioms Verif.Props.C19_fails_iff
#print axioms Verif.Props.C19_partial
#print axioms Verif.Props.C19_mapping
#print axioms Verif.Props.C20_partial
#print axioms Verif.Props.C20_stays
#print axioms Verif.Props.C20_computed
#print axioms Verif.Props.C20_refuted
#print axioms Verif.Props.C21_matching
#print axioms Verif.Props.C21_retrieval
#print axioms Verif.Props.C21_success
#print axioms Verif.Props.C22_partial
#print axioms Verif.Props.C22_success
#print axioms Verif.Props.C22_matches
#print axioms Verif.Props.C22_refuted
#print axioms Verif.Props.C23_window
#print axioms Verif.Props.C23_recently
#print axioms Verif.Props.C23_failures
#print axioms Verif.Props.C23_refuted_strict
#print axioms Verif.Props.C24_formula
#print axioms Verif.Props.C24_practice
#print axioms Verif.Props.C24_forgetting
#print axioms Verif.Props.C24_recency
#print axioms Verif.Props.C25_twice
#print axioms Verif.Props.C25_optimized
#print axioms Verif.Props.C25_refuted
#print axioms Verif.Props.C25_partial
#print axioms Verif.Props.C26_latency
#print axioms Verif.Props.C27_spreading
#print axioms Verif.Props.C27_unrelated
#print axioms Verif.Props.C27_unknown
#print axioms Verif.Props.C28_partial
#print axioms Verif.Props.C28_order_partial
#print axioms Verif.Props.C28_total
#print axioms Verif.Props.C28_refuted
#print axioms Verif.Props.C29_partial
#print axioms Verif.Props.C29_first
#print axioms Verif.Props.C29_initial
#print axioms Verif.Props.C29_refuted
#print axioms Verif.Props.C30_partial
#print axioms Verif.Props.C30_uncompiled
#print axioms Verif.Props.C30_refuted
#print axioms Verif.Props.C30_unchanged
#print axioms Verif.Props.C30_meaning_partial
#print axioms Verif.Props.C30_outcome
#print axioms Verif.Props.C30_outcome_exact
#print axioms Verif.Props.C30_settled
#print axioms Verif.Props.C30_run
#print axioms Verif.Props.C30_times_partial
#print axioms Verif.Props.C30_exact_partial
#print axioms Verif.Props.C31_partial
#print axioms Verif.Props.C31_unmixed
#print axioms Verif.Props.C31_refuted
#print axioms Verif.Props.C32_partial
#print axioms Verif.Props.C32_clears
#print axioms Verif.Props.C32_refuted
#print axioms Verif.Props.C33_firing
#print axioms Verif.Props.C33_compiled
#print axioms Verif.Props.C33_partial
#print axioms Verif.Props.C33_unstopped
#print axioms Verif.Props.C33_refuted
#print axioms Verif.Props.C33_update
#print axioms Verif.Props.C33_contract
#print axioms Verif.Props.C33_record
#print axioms Verif.Props.C34_partial
#print axioms Verif.Props.C34_refuted
#print axioms Verif.Props.C35_partial
#print axioms Verif.Props.C35_refuted
#print axioms Verif.Props.C36_cases
#print axioms Verif.Props.C36_partial
#print axioms Verif.Props.C36_sound
#print axioms Verif.Props.C36_extra
#print axioms Verif.Props.C36_refuted
#print axioms Verif.Props.C37_partial
#print axioms Verif.Props.C37_refuted
#print axioms Verif.Props.C37_default
#print axioms Verif.Props.C38_mirrored
#print axioms Verif.Props.C38_partial
#print axioms Verif.Props.C38_refuted
#print axioms Verif.Props.C39_partial
#print axioms Verif.Props.C39_ends
#print axioms Verif.Props.C39_refuted
#print axioms Verif.Props.C39_finst
#print axioms Verif.Props.C40_search
#print axioms Verif.Props.C40_refuted
#print axioms Verif.Props.C40_partial
#print axioms Verif.Props.C40_remembers
#print axioms Verif.Props.C40_ends
#print axioms Verif.Props.C41_partial
#print axioms Verif.Props.C41_refuted
#print axioms Verif.Props.C42
#print axioms Verif.Props.C42_clock
#print axioms Verif.Props.C43
#print axioms Verif.Props.C44_partial
#print axioms Verif.Props.C44_search
#print axioms Verif.Props.C44_idle
#print axioms Verif.Props.C44_refuted
#print axioms Verif.Props.C44_immediate
#print axioms Verif.Props.C45_refuted
#print axioms Verif.Props.C45_request_partial
#print axioms Verif.Props.C45_partial
#print axioms Verif.Props.C45_end_partial
#print axioms Verif.Props.C45_next_partial
#print axioms Verif.Props.C45_soon_partial
#print axioms Verif.Props.C46_refuted
#print axioms Verif.Props.C46_partial
#print axioms Verif.Props.C46_calls_partial
#print axioms Verif.Props.C47_hands_partial
#print axioms Verif.Props.C47_refuted
#print axioms Verif.Props.C47_partial
#print axioms Verif.Props.C47_ready_partial
#print axioms Verif.Props.C47_press_partial
#print axioms Verif.Props.C47_advance_partial
#print axioms Verif.Props.C48_partial
#print axioms Verif.Props.C48_unlearned
#print axioms Verif.Props.C48_learned
#print axioms Verif.Props.C48_recompile
#print axioms Verif.Props.C48_refuted
#print axioms Verif.Props.C49_partial
#print axioms Verif.Props.C49_refuted
#print axioms Verif.Props.C49_clash_compiled
#print axioms Verif.Props.C49_rule_partial
#print axioms Verif.Props.C50_partial
#print axioms Verif.Props.C50_only
#print axioms Verif.Props.C50_refuted
#print axioms Verif.Props.C51_decmem
#print axioms Verif.Props.C51_only
#print axioms Verif.Props.C51_memories
#print axioms Verif.Props.C51_names
#print axioms Verif.Props.C51_partial
#print axioms Verif.Props.C51_buffers
#print axioms Verif.Props.C51_refuted
#print axioms Verif.Props.C51_visual_refuted
#print axioms Verif.Props.C52
#print axioms Verif.Props.C53_buffers
#print axioms Verif.Props.C53_rules
#print axioms Verif.Props.C54_rule
#print axioms Verif.Props.C54_nothing_else
#print axioms Verif.Props.C54_refused
#print axioms Verif.Props.C54_unique
#print axioms Verif.Props.C54_chunk
#print axioms Verif.Props.C54_chunk_else
#print axioms Verif.Props.C55_refuted
#print axioms Verif.Props.C55_partial
#print axioms Verif.Props.C55_words
#print axioms Verif.Props.C56_nameless
#print axioms Verif.Props.C56_refuted
#print axioms Verif.Props.C56_partial
#print axioms Verif.Props.C57_partial
#print axioms Verif.Props.C57_one_partial
#print axioms Verif.Props.C57_last
#print axioms Verif.Props.C57_steps_partial
#print axioms Verif.Props.C57_start_partial
#print axioms Verif.Props.C57_exhausted
#print axioms Verif.Props.C57_returns
#print axioms Verif.Props.C57_ends
#print axioms Verif.Props.C57_after_run
#print axioms Verif.Props.C57_refuted
#print axioms Verif.Props.C57_repeated
#print axioms Verif.Props.C58_angle
#print axioms Verif.Props.C58_angle_symmetric
#print axioms Verif.Props.C58_distance
#print axioms Verif.Props.C58_partial
#print axioms Verif.Props.C58_refuted
#print axioms Verif.Props.C58_farther
#print axioms Verif.Props.C58_times
#print axioms Verif.Props.C58_clock
#print axioms Verif.Props.C58_buffering
#print axioms Verif.Props.C59_partial
#print axioms Verif.Props.C59_refuted
#print axioms Verif.Props.C60_uninterrupted
#print axioms Verif.Props.C60_rules
#print axioms Verif.Props.C60
#print axioms Verif.Props.C60_trace
#print axioms Verif.Props.C60_kept
#print axioms Verif.Props.C60_reported
#print axioms Verif.Props.C61_partial
#print axioms Verif.Props.C61_end
#print axioms Verif.Props.C61_now
#print axioms Verif.Props.C61_refuted
#print axioms Verif.Props.C62
#print axioms Verif.Props.C62_run
#print axioms Verif.Props.C62_returned
#print axioms Verif.Props.C63_refuted
#print axioms Verif.Props.C63_partial
#print axioms Verif.Props.C63_idle_partial
#print axioms Verif.Props.C63_goesOn_partial
#print axioms Verif.Props.C63_helper_partial
#print axioms Verif.Props.C63_only_partial
#print axioms Verif.Props.C63_raised_partial
#print axioms Verif.Props.C63_run_partial
#print axioms Verif.Props.C63_soon_partial
#print axioms Verif.Props.C64_refuted
#print axioms Verif.Props.C64_partial
#print axioms Verif.Props.C64_rules_partial
#print axioms Verif.Props.C64_waits_partial
#print axioms Verif.Props.C64_idle_partial
#print axioms Verif.Props.C64_taken_partial
#print axioms Verif.Props.C65_partial
#print axioms Verif.Props.C65_rules_partial
#print axioms Verif.Props.C65_refuted
#print axioms Verif.Props.C65_types_refuted
#print axioms Verif.Props.C66_partial
#print axioms Verif.Props.C66_refuted
#print axioms Verif.Props.C67_partial
#print axioms Verif.Props.C67_refuted
#print axioms Verif.Props.C67_vars_refuted
#print axioms Verif.Props.C68_partial
#print axioms Verif.Props.C68_compiled_partial
#print axioms Verif.Props.C68_refuted
#print axioms Verif.Props.C69_partial
#print axioms Verif.Props.C69_refuted
#print axioms Verif.Props.C70_range
#print axioms Verif.Props.C70_settle
#print axioms Verif.Props.C70_limit
#print axioms Verif.Props.C70_stalls
#print axioms Verif.Props.C70_unlearned
#print axioms Verif.Props.C71_fades
#print axioms Verif.Props.C71_forgotten
#print axioms Verif.Props.C71_fails
#print axioms Verif.Props.C71_noiseless
#print axioms Verif.Props.C71_kept
#print axioms Verif.Props.C71_given
#print axioms Verif.Props.C72_requested
#print axioms Verif.Props.C72
#print axioms Verif.Props.C73
#print axioms Verif.Props.C74_object
#print axioms Verif.Props.C74_location
#print axioms Verif.Props.C75_reading
#print axioms Verif.Props.C75_partial
#print axioms Verif.Props.C75_refuted
#print axioms Verif.Props.C76
#print axioms Verif.Props.C76_firings
#print axioms Verif.Props.C77_partial
#print axioms Verif.Props.C77_visual
#print axioms Verif.Props.C77_emma
#print axioms Verif.Props.C77_refuted
#print axioms Verif.Props.C78_course
#print axioms Verif.Props.C78_remembers
#print axioms Verif.Props.C78_learns
#print axioms Verif.Props.C78_single
#print axioms Verif.Props.C79_practice
#print axioms Verif.Props.C79_kept
#print axioms Verif.Props.C79_stems
#print axioms Verif.Props.C79_closed
#print axioms Verif.Props.C79_list
#print axioms Verif.Props.C79_tried
#print axioms Verif.Props.C80_partial
#print axioms Verif.Props.C80_plain_partial
#print axioms Verif.Props.C80_first
#print axioms Verif.Props.C80_noisy
#print axioms Verif.Props.C80_compiled_refuted
#print axioms Verif.Props.C80_refuted
#print axioms Verif.Props.C81
#print axioms Verif.Props.C81_clock
#print axioms Verif.Props.C82_apart
#print axioms Verif.Props.C82_count
#print axioms Verif.Props.C82_window
#print axioms Verif.Props.C82_rounded
#print axioms Verif.Props.C83_partial
#print axioms Verif.Props.C83_step
#print axioms Verif.Props.C83_calls
#print axioms Verif.Props.C83_refuted
#print axioms Verif.Props.C84
#print axioms Verif.Props.C84_rules
#print axioms Verif.Props.C84_requests
#print axioms Verif.Props.C84_forever
#print axioms Verif.Props.C84_run
#print axioms Verif.Props.C84_modules
#print axioms Verif.Props.C85
#print axioms Verif.Props.C85_clock
#print axioms Verif.Props.C85_ends
#print axioms Verif.Props.C85_raised
#print axioms Verif.Props.C86_refuted
#print axioms Verif.Props.C86_settings_refuted
#print axioms Verif.Props.C86_memory
#print axioms Verif.Props.C86_partial
#print axioms Verif.Props.C86_alike
#print axioms Verif.Props.C87_partial
#print axioms Verif.Props.C87_same_partial
#print axioms Verif.Props.C87_follows
#print axioms Verif.Props.C87_sleep
#print axioms Verif.Props.C87_refuted
#print axioms Verif.Props.C88_events
#print axioms Verif.Props.C88
#print axioms Verif.Props.C88_fails
#print axioms Verif.Props.C88_run
#print axioms Verif.Props.C88_first
#print axioms Verif.Props.C88_firstRun
#print axioms Verif.Props.C89_goal
#print axioms Verif.Props.C89_goals
#print axioms Verif.Props.C89_retrieval
#print axioms Verif.Props.C89_retrievals
#print axioms Verif.Props.C89_named
#print axioms Verif.Props.C89_refuted
#print axioms Verif.Props.C89_partial
#print axioms Verif.Props.C90
#print axioms Verif.Props.C90_wired
#print axioms Verif.Props.C90_sorted
#print axioms Verif.Props.C91_partial
#print axioms Verif.Props.C91_chunk_partial
#print axioms Verif.Props.C91_other_partial
#print axioms Verif.Props.C91_refuted
#print axioms Verif.Props.C92
#print axioms Verif.Props.C93
#print axioms Verif.Props.C93_announced
#print axioms Verif.Props.C93_rules
#print axioms Verif.Props.C93_modules
#print axioms Verif.Props.C94
#print axioms Verif.Props.C94_announced
#print axioms Verif.Props.C94_waiting
#print axioms Verif.Props.C94_class
#print axioms Verif.Props.C94_press
#print axioms Verif.Props.C94_keys
