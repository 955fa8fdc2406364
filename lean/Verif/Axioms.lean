import Verif.Cache.ListModel
import Verif.Cache.PropsCounter
import Verif.Cache.PropsCron
import Verif.Cache.PropsDb
import Verif.Cache.PropsEntry
import Verif.Cache.PropsEntryExact
import Verif.Cache.PropsExact
import Verif.Cache.PropsExact2
import Verif.Cache.PropsExactHash
import Verif.Cache.PropsHash
import Verif.Cache.PropsMeta
import Verif.Cache.PropsRef
import Verif.Cache.PropsRefExact
import Verif.Cache.PropsSet
import Verif.Cache.PropsString
import Verif.Cache.PropsWidths
import Verif.Client.PropsCmd
import Verif.Client.PropsCmdExact
import Verif.Client.PropsCtx
import Verif.Client.PropsCuts
import Verif.Client.PropsHandlers
import Verif.Client.PropsKeep
import Verif.Client.PropsKind
import Verif.Client.PropsMany
import Verif.Client.PropsManyExact
import Verif.Client.PropsOptions
import Verif.Client.PropsPool
import Verif.Client.PropsPoolClose
import Verif.Client.PropsPoolExact
import Verif.Client.PropsPoolRace
import Verif.Client.PropsPoolRoom
import Verif.Client.PropsRemote
import Verif.Client.PropsSame
import Verif.Client.PropsSeen
import Verif.Client.PropsSelect
import Verif.Client.PropsSession
import Verif.Conc.Props
import Verif.Conc.PropsAlone
import Verif.Conc.PropsFull
import Verif.Conc.PropsIsolate
import Verif.Conc.PropsLost
import Verif.Conc.PropsLostMany
import Verif.Conc.PropsMoment
import Verif.Conc.PropsMomentWriter
import Verif.Conc.PropsMomentWriters
import Verif.Conc.PropsRace
import Verif.Conc.PropsRaceHash
import Verif.Conc.PropsRaceLists
import Verif.Conc.PropsRaceNX
import Verif.Conc.PropsRaceNew
import Verif.Conc.PropsRealTime
import Verif.Conc.PropsSource
import Verif.Conc.PropsStale
import Verif.Conc.PropsStaleExact
import Verif.Conc.PropsTorn
import Verif.Conc.PropsWriters
import Verif.FloatShortest
import Verif.Lzf.Props
import Verif.Lzf.PropsExact
import Verif.Lzf.PropsRoom
import Verif.Lzf.PropsRun
import Verif.Lzf.PropsSize
import Verif.PropsFloat
import Verif.PropsLiteral
import Verif.Rdb.Props
import Verif.Rdb.PropsDeadline
import Verif.Rdb.PropsEnds
import Verif.Rdb.PropsExact
import Verif.Rdb.PropsExact2
import Verif.Rdb.PropsFault
import Verif.Rdb.PropsIntact
import Verif.Rdb.PropsLoad
import Verif.Rdb.PropsModule
import Verif.Rdb.PropsOne
import Verif.Rdb.PropsPacked
import Verif.Rdb.PropsPackedRest
import Verif.Rdb.PropsRight
import Verif.Rdb.PropsStep
import Verif.Rdb.PropsWhole
import Verif.Rdb.PropsZipmap
import Verif.Repl.Ack
import Verif.Repl.Disk
import Verif.Repl.Props
import Verif.Repl.PropsAgain
import Verif.Repl.PropsAll
import Verif.Repl.PropsEnd
import Verif.Repl.PropsExact
import Verif.Repl.PropsFailed
import Verif.Repl.PropsFault
import Verif.Repl.PropsFiles
import Verif.Repl.PropsHandle
import Verif.Repl.PropsMachine
import Verif.Repl.PropsPlaces
import Verif.Repl.PropsRace
import Verif.Repl.PropsStop
import Verif.Repl.PropsStuck
import Verif.Repl.PropsWire
import Verif.Resp.Props
import Verif.Resp.PropsExact
import Verif.Resp.PropsJoin
import Verif.Resp.PropsRest
import Verif.Resp.PropsWriter
import Verif.Suite.Props
import Verif.Suite.PropsAll
import Verif.Suite.PropsOther
import Verif.Whole.Props
import Verif.Whole.PropsAll
/-!
# Axioms of every property theorem

Generated by tools/gen_manifest.py. Each line must list only propext, Classical.choice, Quot.sound.
-/
#print axioms Verif.C01_exact
#print axioms Verif.C01_violated
#print axioms Verif.C01_violated_by_stale_deadline
#print axioms Verif.C01_get_set_partial
#print axioms Verif.C02_exact
#print axioms Verif.C02_get_set_canon
#print axioms Verif.C02_canon_stable_partial
#print axioms Verif.C02_violated
#print axioms Verif.C03_exact
#print axioms Verif.C03_last_write_wins_partial
#print axioms Verif.C03_last_write_wins_noTTL_partial
#print axioms Verif.C03_violated
#print axioms Verif.C04_isolation_call
#print axioms Verif.C04_isolation
#print axioms Verif.C05_exact
#print axioms Verif.C05_exact_range
#print axioms Verif.C05_setEX_partial
#print axioms Verif.C05_pSetEX_partial
#print axioms Verif.C05_violated
#print axioms Verif.C06_exact
#print axioms Verif.C06_nonpositive_partial
#print axioms Verif.C06_monotone_partial
#print axioms Verif.C06_violated
#print axioms Verif.C07_exact
#print axioms Verif.C07_violated
#print axioms Verif.C07_set_persistent_partial
#print axioms Verif.C07_set_keeps_deadline
#print axioms Verif.C08_exact
#print axioms Verif.C08_violated
#print axioms Verif.C08_setNX_partial
#print axioms Verif.C09_exact
#print axioms Verif.C09_getSet_returns_old
#print axioms Verif.C09_getSet_stores
#print axioms Verif.C09_violated
#print axioms Verif.C10_exact
#print axioms Verif.C10_violated
#print axioms Verif.C10_reads_not_observable_partial
#print axioms Verif.C10_reads_invisible_to_reads_partial
#print axioms Verif.C100_any_interleaving
#print axioms Verif.C100_commute
#print axioms Verif.Conc.Full.C101_no_deadlock
#print axioms Verif.Conc.Full.C101_no_endless_run
#print axioms Verif.Conc.Full.C101_every_call_returns
#print axioms Verif.Conc.C102_alone
#print axioms Verif.Conc.Full.C102_guarded
#print axioms Verif.Conc.Full.C102_quiet
#print axioms Verif.Conc.Full.C102_with_sweep
#print axioms Verif.Conc.Full.C102_own_keys
#print axioms Verif.Conc.Full.C102_real_time
#print axioms Verif.Conc.Full.C102_real_time_quiet
#print axioms Verif.Conc.Full.C102_real_time_locked
#print axioms Verif.Conc.Full.C103_violated
#print axioms Verif.Conc.Full.C103_snapshot_partial
#print axioms Verif.Conc.C103_exact
#print axioms Verif.Conc.C103_writer_exact
#print axioms Verif.Conc.C103_writers_exact
#print axioms Verif.Conc.Full.C103_real_time_partial
#print axioms Verif.Conc.Full.C104_isolated
#print axioms Verif.Conc.Full.C104_alone
#print axioms Verif.Conc.Full.C104_untouched
#print axioms Verif.Conc.Full.C105_get
#print axioms Verif.Conc.Full.C105_mGet
#print axioms Verif.Conc.Full.C105_hGet
#print axioms Verif.Conc.Full.C105_hMGet
#print axioms Verif.Conc.Full.C105_listing
#print axioms Verif.Client.Many.C106_own_reply_partial
#print axioms Verif.Client.Many.C106_executed_was_called_partial
#print axioms Verif.Client.Many.C106_at_most_once_partial
#print axioms Verif.Client.Many.C106_sequential_partial
#print axioms Verif.Client.Many.C106_one_store_partial
#print axioms Verif.Client.Many.C106_bounded_partial
#print axioms Verif.Client.Many.C106_no_deadlock_partial
#print axioms Verif.Client.Many.C106_violated
#print axioms Verif.Client.Many.C106_exact
#print axioms Verif.Resp.C107_in_order
#print axioms Verif.Resp.C107_received
#print axioms Verif.Resp.C107_reliable
#print axioms Verif.Repl.C108_new_working
#print axioms Verif.Repl.C108_new_partial
#print axioms Verif.Resp.C108_exact_partial
#print axioms Verif.Resp.C108_violated
#print axioms Verif.Resp.C108_working_disk
#print axioms Verif.Repl.C109_offset
#print axioms Verif.Repl.C109_id
#print axioms Verif.Repl.C109_acks_partial
#print axioms Verif.Repl.C109_after_load_partial
#print axioms Verif.Repl.C109_violated
#print axioms Verif.Repl.C109_exact
#print axioms Verif.C11_strLen
#print axioms Verif.Whole.C110_converges_partial
#print axioms Verif.Whole.C110_prefix_partial
#print axioms Verif.Whole.C110_own_write_partial
#print axioms Verif.Whole.C110_can_catch_up_partial
#print axioms Verif.Whole.C110_violated
#print axioms Verif.Whole.C110_exact
#print axioms Verif.Whole.C110_no_invention
#print axioms Verif.Whole.C110_violated_others
#print axioms Verif.Whole.C110_violated_append
#print axioms Verif.Whole.C111_caught_up_partial
#print axioms Verif.Whole.C111_violated
#print axioms Verif.Whole.C111_exact
#print axioms Verif.Whole.C112_lost_for_good
#print axioms Verif.Whole.C112_settled
#print axioms Verif.Whole.C112_violated
#print axioms Verif.Whole.C112_exact
#print axioms Verif.C113_literal
#print axioms Verif.C113_denotes_unique
#print axioms Verif.C113_words
#print axioms Verif.C113_nothing_else
#print axioms Verif.C113_get_set
#print axioms Verif.Conc.Race.C114_no_race_partial
#print axioms Verif.Conc.Race.C114_locked
#print axioms Verif.Conc.Race.C114_lookups
#print axioms Verif.Conc.Race.C114_setnx
#print axioms Verif.Conc.Race.C114_pair_exact
#print axioms Verif.Conc.Race.C114_violated
#print axioms Verif.Conc.Race.C114_flush_violated
#print axioms Verif.Conc.Race.C114_same_machine
#print axioms Verif.Conc.Race.C114_hash_lists_violated
#print axioms Verif.Conc.Race.C114_create_lists_violated
#print axioms Verif.Conc.Race.C114_third_lists_violated
#print axioms Verif.Conc.Race.C114_hash_lists_exact
#print axioms Verif.Conc.Race.C114_flush_lists_violated
#print axioms Verif.Conc.Race.C114_lists_exact
#print axioms Verif.Conc.Race.C114_first_violated
#print axioms Verif.Conc.Race.C114_setnx_lists_exact
#print axioms Verif.Conc.Race.C114_new_lists_exact
#print axioms Verif.Pool.Race.C115_exact
#print axioms Verif.Pool.Race.C115_size_exact
#print axioms Verif.Pool.Race.C115_violated
#print axioms Verif.Pool.Race.C115_full_partial
#print axioms Verif.Pool.Race.C115_warm_partial
#print axioms Verif.Pool.Race.C115_pool_unharmed
#print axioms Verif.Pool.Race.C115_warm_case
#print axioms Verif.Lzf.C116_runs
#print axioms Verif.Repl.Race.C117_race_free
#print axioms Verif.Repl.Race.C117_all_runs
#print axioms Verif.Repl.Files.C118_polite_partial
#print axioms Verif.Repl.Files.C118_other_files_partial
#print axioms Verif.Repl.Files.C118_violated_any
#print axioms Verif.Repl.Files.C118_violated_zeros
#print axioms Verif.Repl.Files.C118_own_file_step
#print axioms Verif.Repl.Files.C118_own_file
#print axioms Verif.Repl.Files.C118_violated
#print axioms Verif.Repl.Files.C118_leaves
#print axioms Verif.Repl.Files.C118_exact
#print axioms Verif.Repl.C119_ends_partial
#print axioms Verif.Repl.C119_exact
#print axioms Verif.Repl.C119_violated
#print axioms Verif.C12_exact
#print axioms Verif.C12_append_canon
#print axioms Verif.C12_append_partial
#print axioms Verif.C12_violated
#print axioms Verif.Client.C120_violated
#print axioms Verif.Client.C120_exact
#print axioms Verif.Client.C120_status_partial
#print axioms Verif.Client.C120_violated_same
#print axioms Verif.Client.C120_violated_float
#print axioms Verif.Repl.C121_exact
#print axioms Verif.Repl.C121_survives_partial
#print axioms Verif.Repl.C121_bytes_exact
#print axioms Verif.Repl.C121_violated
#print axioms Verif.Repl.C121_violated_commands
#print axioms Verif.Repl.C121_violated_list
#print axioms Verif.Repl.Again.C122_kept
#print axioms Verif.Repl.Again.C122_exact
#print axioms Verif.Repl.Again.C122_not_saved_partial
#print axioms Verif.Repl.Again.C122_violated
#print axioms Verif.Suite.C123_conditions
#print axioms Verif.Suite.C123_steady
#print axioms Verif.Suite.C123_violated_hDel
#print axioms Verif.Suite.C123_set
#print axioms Verif.Suite.C123_setNX
#print axioms Verif.Suite.C123_hExists_exact
#print axioms Verif.Suite.C123_hGet
#print axioms Verif.Suite.C123_setEX_exact
#print axioms Verif.Suite.C123_pSetEX_exact
#print axioms Verif.Suite.C123_getRange
#print axioms Verif.Suite.C123_decrBy
#print axioms Verif.Suite.C123_violated_twice
#print axioms Verif.Suite.C123_mSet
#print axioms Verif.Suite.C123_mSetNX
#print axioms Verif.Suite.C123_suite_exact
#print axioms Verif.Suite.C123_first_round
#print axioms Verif.Suite.C123_violated_second_round
#print axioms Verif.Suite.C123_violated_stale
#print axioms Verif.Rdb.C124_get_exact
#print axioms Verif.Rdb.C124_len_exact
#print axioms Verif.Rdb.C124_violated_blobLen
#print axioms Verif.Rdb.C124_iterate_exact
#print axioms Verif.Rdb.C124_violated_del
#print axioms Verif.Rdb.C125_exact
#print axioms Verif.Rdb.C125_format_partial
#print axioms Verif.Rdb.C125_violated
#print axioms Verif.Rdb.C126_length
#print axioms Verif.Rdb.C126_loaded
#print axioms Verif.Rdb.C126_panics_exact
#print axioms Verif.Client.Many.C127_violated_ignored
#print axioms Verif.Client.Many.C127_ignored_exact
#print axioms Verif.Client.Many.C127_violated_conn
#print axioms Verif.Client.Many.C127_violated_recv
#print axioms Verif.Client.Many.C127_violated_retry
#print axioms Verif.Client.Many.C127_violated_waits
#print axioms Verif.Entry.C128_violated
#print axioms Verif.Entry.C128_safe_partial
#print axioms Verif.Entry.C128_no_copies_partial
#print axioms Verif.Entry.C128_exact
#print axioms Verif.Rdb.C129_record_exact
#print axioms Verif.Rdb.C129_file_exact
#print axioms Verif.Rdb.C129_violated
#print axioms Verif.Rdb.C129_empty_partial
#print axioms Verif.C13_exact
#print axioms Verif.C13_setRange_canon
#print axioms Verif.C13_setRange_partial
#print axioms Verif.C13_setRange_negative
#print axioms Verif.C13_violated
#print axioms Verif.C13_violated_huge
#print axioms Verif.Suite.C130_violated
#print axioms Verif.Suite.C130_get_failed_exact
#print axioms Verif.Suite.C130_get_usable_exact
#print axioms Verif.Suite.C130_new_partial
#print axioms Verif.Suite.C130_lzf_partial
#print axioms Verif.Suite.C130_zipmap_partial
#print axioms Verif.Suite.C130_remote_partial
#print axioms Verif.Resp.C131_sent
#print axioms Verif.Resp.C131_received
#print axioms Verif.Resp.C131_unknown
#print axioms Verif.Resp.C132_same
#print axioms Verif.Resp.C132_exact
#print axioms Verif.Resp.C132_violated
#print axioms Verif.Resp.C132_panic_exact
#print axioms Verif.Resp.C132_length
#print axioms Verif.Pool.C133_violated
#print axioms Verif.Pool.C133_violated_stuck
#print axioms Verif.Pool.C133_exact
#print axioms Verif.Pool.C133_waiting_partial
#print axioms Verif.Pool.C133_returns_exact
#print axioms Verif.Repl.C134_exact
#print axioms Verif.Repl.C134_violated_acks
#print axioms Verif.Repl.C134_violated
#print axioms Verif.Repl.C135_taken
#print axioms Verif.Repl.C135_violated_any
#print axioms Verif.Repl.C135_loud_partial
#print axioms Verif.Repl.C135_exact
#print axioms Verif.Repl.C135_violated
#print axioms Verif.C136_exact
#print axioms Verif.C136_violated
#print axioms Verif.C136_before_first_partial
#print axioms Verif.Pool.C137_in_order
#print axioms Verif.Pool.C137_exact
#print axioms Verif.Pool.C137_client_partial
#print axioms Verif.Pool.C137_violated
#print axioms Verif.Repl.C138_ops
#print axioms Verif.Repl.C138_defaults
#print axioms Verif.Repl.C138_same_master
#print axioms Verif.Rdb.C139_exact
#print axioms Verif.Rdb.C139_violated
#print axioms Verif.Rdb.C139_boundary_partial
#print axioms Verif.Rdb.C139_supported_partial
#print axioms Verif.Rdb.C139_string_exact
#print axioms Verif.Rdb.C139_violated_key
#print axioms Verif.Rdb.C139_violated_value
#print axioms Verif.Repl.C139_new_exact
#print axioms Verif.Repl.C139_violated_ping
#print axioms Verif.Repl.C139_violated_new
#print axioms Verif.Repl.C139_new_partial
#print axioms Verif.C14_getRange
#print axioms Verif.C15_incrBy_partial
#print axioms Verif.C15_set_incrBy_partial
#print axioms Verif.C15_violated
#print axioms Verif.C15_exact
#print axioms Verif.C15_width_partial
#print axioms Verif.C15_width_exact
#print axioms Verif.C16_counters_add_up
#print axioms Verif.C16_counters_any_order
#print axioms Verif.C16_exact_when_it_fits
#print axioms Verif.C16_decrBy_undoes
#print axioms Verif.C17_failed_incr_no_change
#print axioms Verif.C17_failed_incrByFloat_no_change
#print axioms Verif.C17_not_a_number_fails
#print axioms Verif.C17_visible_text_not_a_number
#print axioms Verif.C18_violated
#print axioms Verif.C18_restart_partial
#print axioms Verif.C18_exact
#print axioms Verif.C19_violated
#print axioms Verif.C19_incrByFloat_partial
#print axioms Verif.C19_set_incrByFloat_partial
#print axioms Verif.C19_exact
#print axioms Verif.C20_mSet
#print axioms Verif.C20_mSet_any_order
#print axioms Verif.C21_mSetNX_partial
#print axioms Verif.C21_mSetNX_any_order
#print axioms Verif.C21_violated
#print axioms Verif.C21_exact
#print axioms Verif.C22_mGet
#print axioms Verif.C22_mGet_pointwise
#print axioms Verif.C23_del
#print axioms Verif.C24_exists_partial
#print axioms Verif.C24_violated
#print axioms Verif.C24_exact
#print axioms Verif.C24_exact_iff
#print axioms Verif.C25_flush
#print axioms Verif.C25_flush_empty
#print axioms Verif.C26_violated
#print axioms Verif.C26_type_partial
#print axioms Verif.C26_exact
#print axioms Verif.C27_violated
#print axioms Verif.C27_tick_wipes_partial
#print axioms Verif.C27_tick_early_partial
#print axioms Verif.C27_exact
#print axioms Verif.C28_string_call_on_hash_partial
#print axioms Verif.C28_hash_call_on_string
#print axioms Verif.C28_violated
#print axioms Verif.C28_exact
#print axioms Verif.C29_violated_lists
#print axioms Verif.C29_violated
#print axioms Verif.C29_no_panic_partial
#print axioms Verif.C29_exact
#print axioms Verif.C30_exact_hSetNX
#print axioms Verif.C30_hSet_hGet
#print axioms Verif.C30_hMSet_hGet
#print axioms Verif.C30_violated_hSetNX
#print axioms Verif.C31_exact
#print axioms Verif.C31_exact_iff
#print axioms Verif.C31_violated
#print axioms Verif.C31_hLen_partial
#print axioms Verif.C32_hSetNX
#print axioms Verif.C33_hDel
#print axioms Verif.C34_exact
#print axioms Verif.C34_exact_error
#print axioms Verif.C34_violated
#print axioms Verif.C34_hIncrBy_partial
#print axioms Verif.C34_width_partial
#print axioms Verif.C34_width_exact
#print axioms Verif.C35_exact
#print axioms Verif.C35_exact_error
#print axioms Verif.C35_violated
#print axioms Verif.C35_hIncrByFloat_partial
#print axioms Verif.C35_width_exact
#print axioms Verif.C36_hMSet
#print axioms Verif.C36_hMSet_any_order
#print axioms Verif.C36_hMGet
#print axioms Verif.C37_exact_hVals
#print axioms Verif.C37_hKeys
#print axioms Verif.C37_violated
#print axioms Verif.C37_hGetAll_always_empty
#print axioms Verif.C37_hVals_partial
#print axioms Verif.C38_hStrLen
#print axioms Verif.C39_field_isolation
#print axioms Verif.Conc.C40_linearizable
#print axioms Verif.Conc.C40_linearizable_with_readers
#print axioms Verif.Conc.C40_linearizable_deadlines
#print axioms Verif.Conc.C41_no_lost_increment
#print axioms Verif.Conc.C41_no_lost_increment_absent
#print axioms Verif.Conc.C42_violated
#print axioms Verif.Conc.C42_no_stale_read_partial
#print axioms Verif.Conc.C42_overlap_partial
#print axioms Verif.Conc.C42_one_reader_partial
#print axioms Verif.Conc.C42_violated_any
#print axioms Verif.Conc.C42_exact
#print axioms Verif.Conc.C43_violated
#print axioms Verif.Conc.C43_violated_length
#print axioms Verif.Conc.C43_fields_survive_partial
#print axioms Verif.Conc.C43_alone
#print axioms Verif.Conc.C43_violated_any
#print axioms Verif.Conc.C43_exact
#print axioms Verif.Conc.C43_many_violated
#print axioms Verif.Conc.C43_many_exact
#print axioms Verif.Conc.C44_violated
#print axioms Verif.Conc.C44_slots_partial
#print axioms Verif.Conc.C44_violated_any
#print axioms Verif.Conc.C44_violated_torn
#print axioms Verif.Conc.C44_writer_exact
#print axioms Verif.Conc.C44_exact
#print axioms Verif.Conc.C44_torn_exact
#print axioms Verif.Conc.C44_writers_exact
#print axioms Verif.Resp.C45_round_trip
#print axioms Verif.Resp.C46_violated
#print axioms Verif.Resp.C46_violated_large
#print axioms Verif.Resp.C46_any_cut_partial
#print axioms Verif.Resp.C46_token_cuts_partial
#print axioms Verif.Resp.C46_no_bulk_partial
#print axioms Verif.Resp.C46_result
#print axioms Verif.Resp.C46_exact
#print axioms Verif.Resp.C46_exact_place
#print axioms Verif.Resp.C46_message_exact
#print axioms Verif.Resp.C47_binary_safe
#print axioms Verif.Resp.C47_injective
#print axioms Verif.Resp.C48_pipelined
#print axioms Verif.Resp.C49_violated
#print axioms Verif.Resp.C49_total_partial
#print axioms Verif.Resp.C49_exact
#print axioms Verif.Resp.C50_saved
#print axioms Verif.Resp.C50_short
#print axioms Verif.Client.C51_failures
#print axioms Verif.Client.C51_pairs
#print axioms Verif.Client.C51_violated
#print axioms Verif.Client.C51_integer_text
#print axioms Verif.Client.C51_success_partial
#print axioms Verif.Client.C51_status_partial
#print axioms Verif.Client.C51_exact
#print axioms Verif.Client.C52_violated
#print axioms Verif.Client.C52_commands_partial
#print axioms Verif.Client.C52_distinct
#print axioms Verif.Client.C52_exact
#print axioms Verif.Pool.C53_capacity
#print axioms Verif.Pool.C53_capacity_reached
#print axioms Verif.Pool.C53_exclusive
#print axioms Verif.Pool.C54_put_never_blocks
#print axioms Verif.Pool.C54_get_never_blocks_locked
#print axioms Verif.Pool.C54_violated
#print axioms Verif.Pool.C54_conserved_partial
#print axioms Verif.Pool.C54_exact
#print axioms Verif.Pool.C54_lost_once
#print axioms Verif.Pool.C55_violated
#print axioms Verif.Pool.C55_violated_forever
#print axioms Verif.Pool.C55_can_obtain_partial
#print axioms Verif.Pool.C55_exact
#print axioms Verif.Pool.C56_violated
#print axioms Verif.Pool.C56_closes_idle_partial
#print axioms Verif.Pool.C56_exact
#print axioms Verif.Lzf.C57_inverse
#print axioms Verif.Lzf.C58_violated
#print axioms Verif.Lzf.C58_stays_inside_partial
#print axioms Verif.Lzf.C58_one_byte_partial
#print axioms Verif.Lzf.C58_fits
#print axioms Verif.Lzf.C58_exact
#print axioms Verif.Lzf.C59_stays_inside
#print axioms Verif.Lzf.C59_empty
#print axioms Verif.Lzf.C60_decodes
#print axioms Verif.Lzf.C60_only
#print axioms Verif.Lzf.C61_violated
#print axioms Verif.Lzf.C61_violated_empty
#print axioms Verif.Lzf.C61_compressed_partial
#print axioms Verif.Lzf.C61_incompressible_partial
#print axioms Verif.Lzf.C61_compress_total
#print axioms Verif.Lzf.C61_decompress_exact
#print axioms Verif.Lzf.C61_exact
#print axioms Verif.Lzf.C61_runs_partial
#print axioms Verif.Rdb.C62_violated
#print axioms Verif.Rdb.C62_violated_always
#print axioms Verif.Rdb.C62_short_partial
#print axioms Verif.Rdb.C62_exact
#print axioms Verif.Rdb.C63_violated
#print axioms Verif.Rdb.C63_violated_long
#print axioms Verif.Rdb.C63_violated_negative
#print axioms Verif.Rdb.C63_supported_partial
#print axioms Verif.Rdb.C63_small_partial
#print axioms Verif.Rdb.C63_violated_lzf
#print axioms Verif.Rdb.C63_exact
#print axioms Verif.Rdb.C64_violated
#print axioms Verif.Rdb.C64_violated_file
#print axioms Verif.Rdb.C64_encoded_partial
#print axioms Verif.Rdb.C64_uncut_partial
#print axioms Verif.Rdb.C64_result
#print axioms Verif.Rdb.C64_exact
#print axioms Verif.Rdb.C64_exact_place
#print axioms Verif.Rdb.C65_violated
#print axioms Verif.Rdb.C65_supported_partial
#print axioms Verif.Rdb.C65_small_partial
#print axioms Verif.Rdb.C65_replayed_partial
#print axioms Verif.Rdb.C65_exact
#print axioms Verif.Rdb.C65_packed_zset_exact
#print axioms Verif.Rdb.C66_replayed_partial
#print axioms Verif.Rdb.C66_violated_relative
#print axioms Verif.Rdb.C66_any_time
#print axioms Verif.Rdb.C66_exact
#print axioms Verif.Rdb.C66_millis_partial
#print axioms Verif.Rdb.C66_violated
#print axioms Verif.Rdb.C66_next_key_partial
#print axioms Verif.Rdb.C67_exact
#print axioms Verif.Rdb.C67_byte_partial
#print axioms Verif.Rdb.C67_terminates_partial
#print axioms Verif.Rdb.C67_violated
#print axioms Verif.Rdb.C67_violated_rest
#print axioms Verif.Rdb.C67_marker_partial
#print axioms Verif.Rdb.C67_truncated_partial
#print axioms Verif.Rdb.C68_violated
#print axioms Verif.Rdb.C68_violated_list
#print axioms Verif.Rdb.C68_violated_hash
#print axioms Verif.Rdb.C68_violated_zset
#print axioms Verif.Rdb.C68_supported_partial
#print axioms Verif.Rdb.C68_exact_list
#print axioms Verif.Rdb.C68_violated_hash_any
#print axioms Verif.Rdb.C68_exact_zset
#print axioms Verif.Rdb.C69_exact
#print axioms Verif.Rdb.C69_violated
#print axioms Verif.Rdb.C69_violated_tags
#print axioms Verif.Rdb.C69_violated_binary
#print axioms Verif.Rdb.C69_text_partial
#print axioms Verif.Rdb.C69_round_trip_partial
#print axioms Verif.Rdb.C70_exact
#print axioms Verif.Rdb.C70_violated
#print axioms Verif.Rdb.C70_int64_partial
#print axioms Verif.Rdb.C70_small_partial
#print axioms Verif.Rdb.C70_exactly_partial
#print axioms Verif.Rdb.C71_exact
#print axioms Verif.Rdb.C71_no_integers_partial
#print axioms Verif.Rdb.C71_violated
#print axioms Verif.Rdb.C71_violated_long
#print axioms Verif.Rdb.C71_violated_int64
#print axioms Verif.Rdb.C71_short_partial
#print axioms Verif.Rdb.C71_count_partial
#print axioms Verif.Rdb.C71_violated_dropped
#print axioms Verif.Rdb.C71_violated_last
#print axioms Verif.Rdb.C72_violated
#print axioms Verif.Rdb.C72_violated_silent
#print axioms Verif.Rdb.C72_one_partial
#print axioms Verif.Rdb.C72_spaced_partial
#print axioms Verif.Rdb.C72_exact
#print axioms Verif.Rdb.C72_lucky
#print axioms Verif.Rdb.C73_one_exact
#print axioms Verif.Rdb.C73_violated
#print axioms Verif.Rdb.C73_violated_again
#print axioms Verif.Rdb.C73_violated_panics
#print axioms Verif.Rdb.C73_first_found_partial
#print axioms Verif.Rdb.C73_first_again_partial
#print axioms Verif.Rdb.C73_count_partial
#print axioms Verif.Rdb.C73_others_partial
#print axioms Verif.Rdb.C73_violated_phantom
#print axioms Verif.Rdb.C73_spaced_partial
#print axioms Verif.Repl.C74_violated
#print axioms Verif.Repl.C74_violated_rpush
#print axioms Verif.Repl.C74_violated_hmset
#print axioms Verif.Repl.C74_set_partial
#print axioms Verif.Repl.C74_unsupported_partial
#print axioms Verif.Repl.C74_error_no_change_partial
#print axioms Verif.Repl.C74_panics_partial
#print axioms Verif.Repl.C74_exact
#print axioms Verif.Repl.C75_violated
#print axioms Verif.Repl.C75_canonical_partial
#print axioms Verif.Repl.C75_verbatim_partial
#print axioms Verif.Repl.C75_exact
#print axioms Verif.Repl.C75_heartbeat
#print axioms Verif.Repl.C76_violated_other
#print axioms Verif.Repl.C76_exact
#print axioms Verif.Repl.C76_violated
#print axioms Verif.Repl.C76_tagged_partial
#print axioms Verif.Repl.C76_snapshot_partial
#print axioms Verif.Repl.C77_violated
#print axioms Verif.Repl.C77_one_command_violated
#print axioms Verif.Repl.C77_first_error_partial
#print axioms Verif.Repl.C77_supported_partial
#print axioms Verif.Repl.C77_violated_closed
#print axioms Verif.Repl.C77_exact
#print axioms Verif.Repl.C77_other_database_partial
#print axioms Verif.Repl.C78_violated
#print axioms Verif.Repl.C79_exact
#print axioms Verif.Repl.C79_all_types_partial
#print axioms Verif.Repl.C79_violated
#print axioms Verif.Repl.C79_end_to_end_partial
#print axioms Verif.Repl.C79_can_catch_up_partial
#print axioms Verif.C80_atoi_itoa
#print axioms Verif.C80_atoi_accepts
#print axioms Verif.C80_atoi_rejects
#print axioms Verif.C80_itoa_injective
#print axioms Verif.C81_format_shortest
#print axioms Verif.C81_format_special
#print axioms Verif.C81_parse_format
#print axioms Verif.C81_format_injective
#print axioms Verif.C81_parse_decimal_nearest
#print axioms Verif.C82_add_correctly_rounded
#print axioms Verif.C82_nearest_exists
#print axioms Verif.C82_ofInt_correctly_rounded
#print axioms Verif.C82_nan_iff
#print axioms Verif.C82_infinite
#print axioms Verif.C82_incrByFloat
#print axioms Verif.Pool.C83_violated
#print axioms Verif.Pool.C83_waits_for_somebody_partial
#print axioms Verif.Pool.C83_exact
#print axioms Verif.Pool.C83_violated_closed
#print axioms Verif.Lzf.C84_expansion
#print axioms Verif.Lzf.C84_enough_room
#print axioms Verif.Lzf.C84_violated
#print axioms Verif.Lzf.C84_documented_partial
#print axioms Verif.Lzf.C84_room_enough
#print axioms Verif.Lzf.C84_room_exact
#print axioms Verif.Lzf.C84_room_value
#print axioms Verif.Lzf.C84_fresh
#print axioms Verif.Lzf.C84_tight
#print axioms Verif.Lzf.C84_exact
#print axioms Verif.Lzf.C84_exact_lengths
#print axioms Verif.Lzf.C84_violated_room
#print axioms Verif.Repl.C85_snapshot_saved
#print axioms Verif.Repl.C86_violated
#print axioms Verif.Repl.C86_violated_new
#print axioms Verif.Repl.C86_ping_partial
#print axioms Verif.Repl.C86_violated_any
#print axioms Verif.Repl.C86_new_exact
#print axioms Verif.Repl.C86_text_partial
#print axioms Verif.Repl.C86_other_partial
#print axioms Verif.Repl.C87_violated
#print axioms Verif.Repl.C87_exact
#print axioms Verif.Repl.C88_violated
#print axioms Verif.Repl.C88_exact
#print axioms Verif.Repl.C88_small_partial
#print axioms Verif.Repl.C88_violated_zero
#print axioms Verif.Repl.C89_exact
#print axioms Verif.Repl.C89_no_invention
#print axioms Verif.Repl.C89_prefix_partial
#print axioms Verif.Repl.C89_violated
#print axioms Verif.Repl.C89_monotone
#print axioms Verif.Repl.C89_never_back_partial
#print axioms Verif.C90_conforms_partial
#print axioms Verif.C90_violated
#print axioms Verif.C90_exact
#print axioms Verif.C90_run_exact
#print axioms Verif.C90_alike
#print axioms Verif.Client.C91_bulk_exact
#print axioms Verif.Client.C91_exact
#print axioms Verif.Client.C91_run_exact
#print axioms Verif.Client.C91_paired_partial
#print axioms Verif.Client.C91_late_violated
#print axioms Verif.Client.C91_forged_violated
#print axioms Verif.Client.C91_violated
#print axioms Verif.Client.C92_sessions
#print axioms Verif.Client.C92_exact
#print axioms Verif.Client.C92_answers_partial
#print axioms Verif.Client.C92_violated
#print axioms Verif.Client.C92_unreachable_violated
#print axioms Verif.Client.C93_dial
#print axioms Verif.Client.C93_configured
#print axioms Verif.Client.C93_select_violated
#print axioms Verif.Client.C93_exact
#print axioms Verif.Client.C93_select_exact
#print axioms Verif.Client.C93_one_connection_exact
#print axioms Verif.Client.C94_remote_partial
#print axioms Verif.Client.C94_violated
#print axioms Verif.Client.C94_seen_partial
#print axioms Verif.Client.C94_exact
#print axioms Verif.Client.C94_violated_any
#print axioms Verif.Client.C95_same_answers_partial
#print axioms Verif.Client.C95_violated
#print axioms Verif.Client.C95_alike_partial
#print axioms Verif.Client.C95_exact
#print axioms Verif.C96_hExists
#print axioms Verif.C97_names
#print axioms Verif.C97_key_names
#print axioms Verif.C98_time_shift
#print axioms Verif.C99_key_origin
#print axioms Verif.C99_value_origin
#print axioms Verif.C99_field_origin
