{
 "claims": [
  {
   "property": "C01",
   "status": "partial",
   "theorems": [
    "Verif.C01_exact",
    "Verif.C01_violated",
    "Verif.C01_violated_by_stale_deadline",
    "Verif.C01_get_set_partial"
   ],
   "note": "False as stated (Set keeps a stale deadline, numeric text is rewritten): C01_violated*. Proved for every key whose deadline has not passed and every value stored verbatim."
  },
  {
   "property": "C02",
   "status": "partial",
   "theorems": [
    "Verif.C02_exact",
    "Verif.C02_get_set_canon",
    "Verif.C02_canon_stable_partial",
    "Verif.C02_violated"
   ],
   "note": "False on negative zero only: -0.0 shows as -0, which stored again shows as 0 (C02_violated). First half in full (C02_get_set_canon); second half for every other text (C02_exact)."
  },
  {
   "property": "C03",
   "status": "partial",
   "theorems": [
    "Verif.C03_exact",
    "Verif.C03_last_write_wins_partial",
    "Verif.C03_last_write_wins_noTTL_partial",
    "Verif.C03_violated"
   ],
   "note": "False because a later plain write keeps an earlier deadline: C03_violated. C03_exact: it holds exactly when the deadline in force has not passed."
  },
  {
   "property": "C04",
   "status": "proved",
   "theorems": [
    "Verif.C04_isolation_call",
    "Verif.C04_isolation"
   ],
   "note": ""
  },
  {
   "property": "C05",
   "status": "partial",
   "theorems": [
    "Verif.C05_exact",
    "Verif.C05_exact_range",
    "Verif.C05_setEX_partial",
    "Verif.C05_pSetEX_partial",
    "Verif.C05_violated"
   ],
   "note": "False for TTLs whose nanosecond product overflows: C05_violated. Proved for every TTL that fits."
  },
  {
   "property": "C06",
   "status": "partial",
   "theorems": [
    "Verif.C06_exact",
    "Verif.C06_nonpositive_partial",
    "Verif.C06_monotone_partial",
    "Verif.C06_violated"
   ],
   "note": "False for huge TTLs (overflow): C06_violated."
  },
  {
   "property": "C07",
   "status": "partial",
   "theorems": [
    "Verif.C07_exact",
    "Verif.C07_violated",
    "Verif.C07_set_persistent_partial",
    "Verif.C07_set_keeps_deadline"
   ],
   "note": "False: Set does not clear the deadline (C07_violated, C07_set_keeps_deadline). Proved for keys without deadline."
  },
  {
   "property": "C08",
   "status": "partial",
   "theorems": [
    "Verif.C08_exact",
    "Verif.C08_violated",
    "Verif.C08_setNX_partial"
   ],
   "note": "False: SetNX treats an expired key as present (C08_violated). Proved for non-stale keys."
  },
  {
   "property": "C09",
   "status": "partial",
   "theorems": [
    "Verif.C09_exact",
    "Verif.C09_getSet_returns_old",
    "Verif.C09_getSet_stores",
    "Verif.C09_violated"
   ],
   "note": "False for hash keys: the value is overwritten though an error is returned (C09_violated). Proved otherwise."
  },
  {
   "property": "C10",
   "status": "partial",
   "theorems": [
    "Verif.C10_exact",
    "Verif.C10_violated",
    "Verif.C10_reads_not_observable_partial",
    "Verif.C10_reads_invisible_to_reads_partial"
   ],
   "note": "False: lazy deletion by a read is visible to SetNX/IncrBy (C10_violated). Proved for live keys and for later read calls."
  },
  {
   "property": "C11",
   "status": "proved",
   "theorems": [
    "Verif.C11_strLen"
   ],
   "note": ""
  },
  {
   "property": "C12",
   "status": "partial",
   "theorems": [
    "Verif.C12_exact",
    "Verif.C12_append_canon",
    "Verif.C12_append_partial",
    "Verif.C12_violated"
   ],
   "note": "False for numeric text (canonicalised): C12_violated. Proved up to canon, and exactly for verbatim results."
  },
  {
   "property": "C13",
   "status": "partial",
   "theorems": [
    "Verif.C13_exact",
    "Verif.C13_setRange_canon",
    "Verif.C13_setRange_partial",
    "Verif.C13_setRange_negative",
    "Verif.C13_violated",
    "Verif.C13_violated_huge"
   ],
   "note": "False for numeric text (C13_violated) and, with a panic, for positions past the largest possible slice (C13_violated_huge). Proved up to canon for all other positions."
  },
  {
   "property": "C14",
   "status": "proved",
   "theorems": [
    "Verif.C14_getRange"
   ],
   "note": ""
  },
  {
   "property": "C15",
   "status": "partial",
   "theorems": [
    "Verif.C15_incrBy_partial",
    "Verif.C15_set_incrBy_partial",
    "Verif.C15_violated",
    "Verif.C15_exact",
    "Verif.C15_width_partial",
    "Verif.C15_width_exact"
   ],
   "note": "False: a sum that does not fit 64 bits is stored wrapped (C15_violated). Proved for every sum that fits, on stored integers of every width; C15_exact gives the wrapped answer. C15_width_exact: what is answered and stored for every stored type, also when the sum does not fit."
  },
  {
   "property": "C16",
   "status": "proved",
   "theorems": [
    "Verif.C16_counters_add_up",
    "Verif.C16_counters_any_order",
    "Verif.C16_exact_when_it_fits",
    "Verif.C16_decrBy_undoes"
   ],
   "note": ""
  },
  {
   "property": "C17",
   "status": "proved",
   "theorems": [
    "Verif.C17_failed_incr_no_change",
    "Verif.C17_failed_incrByFloat_no_change",
    "Verif.C17_not_a_number_fails",
    "Verif.C17_visible_text_not_a_number"
   ],
   "note": ""
  },
  {
   "property": "C18",
   "status": "partial",
   "theorems": [
    "Verif.C18_violated",
    "Verif.C18_restart_partial",
    "Verif.C18_exact"
   ],
   "note": "False: these calls do not look at the deadline and go on with the stale value (C18_violated). Proved when a read call came first; C18_exact gives what they answer."
  },
  {
   "property": "C19",
   "status": "partial",
   "theorems": [
    "Verif.C19_violated",
    "Verif.C19_incrByFloat_partial",
    "Verif.C19_set_incrByFloat_partial",
    "Verif.C19_exact"
   ],
   "note": "False: a counter made by Incr/IncrBy shows the same text but is refused (C19_violated). Proved for values that came from Set or IncrByFloat."
  },
  {
   "property": "C20",
   "status": "proved",
   "theorems": [
    "Verif.C20_mSet",
    "Verif.C20_mSet_any_order"
   ],
   "note": ""
  },
  {
   "property": "C21",
   "status": "partial",
   "theorems": [
    "Verif.C21_mSetNX_partial",
    "Verif.C21_mSetNX_any_order",
    "Verif.C21_violated",
    "Verif.C21_exact"
   ],
   "note": "False for MSetNX's all-or-nothing rule: C21_violated. Proved what the loop does for all maps and orders."
  },
  {
   "property": "C22",
   "status": "proved",
   "theorems": [
    "Verif.C22_mGet",
    "Verif.C22_mGet_pointwise"
   ],
   "note": ""
  },
  {
   "property": "C23",
   "status": "proved",
   "theorems": [
    "Verif.C23_del"
   ],
   "note": ""
  },
  {
   "property": "C24",
   "status": "partial",
   "theorems": [
    "Verif.C24_exists_partial",
    "Verif.C24_violated",
    "Verif.C24_exact",
    "Verif.C24_exact_iff"
   ],
   "note": "False: Exists does not look at deadlines (C24_violated). C24_exact_iff: right exactly when no named position holds a stale key."
  },
  {
   "property": "C25",
   "status": "proved",
   "theorems": [
    "Verif.C25_flush",
    "Verif.C25_flush_empty"
   ],
   "note": ""
  },
  {
   "property": "C26",
   "status": "partial",
   "theorems": [
    "Verif.C26_violated",
    "Verif.C26_type_partial",
    "Verif.C26_exact"
   ],
   "note": "False for hashes: C26_violated. C26_exact: right exactly when the key does not hold a readable hash."
  },
  {
   "property": "C27",
   "status": "partial",
   "theorems": [
    "Verif.C27_violated",
    "Verif.C27_tick_wipes_partial",
    "Verif.C27_tick_early_partial",
    "Verif.C27_exact"
   ],
   "note": "False: one tick wipes every key (C27_violated). C27_exact: it holds exactly for keys that are absent anyway."
  },
  {
   "property": "C28",
   "status": "partial",
   "theorems": [
    "Verif.C28_string_call_on_hash_partial",
    "Verif.C28_hash_call_on_string",
    "Verif.C28_violated",
    "Verif.C28_exact"
   ],
   "note": "False for GetSet, which overwrites the hash it rejects (C28_violated). C28_exact lists the exceptions."
  },
  {
   "property": "C29",
   "status": "partial",
   "theorems": [
    "Verif.C29_violated_lists",
    "Verif.C29_violated",
    "Verif.C29_no_panic_partial",
    "Verif.C29_exact"
   ],
   "note": "False: HKeys/HVals/HGetAll on an absent key, the list calls and a SetRange past the largest possible slice panic (C29_violated). C29_exact: these are all the calls that panic. The list calls all panic (C29_violated_lists)."
  },
  {
   "property": "C30",
   "status": "partial",
   "theorems": [
    "Verif.C30_exact_hSetNX",
    "Verif.C30_hSet_hGet",
    "Verif.C30_hMSet_hGet",
    "Verif.C30_violated_hSetNX"
   ],
   "note": "HSet and HMSet in full; HSetNX stores raw text (C30_violated_hSetNX)."
  },
  {
   "property": "C31",
   "status": "partial",
   "theorems": [
    "Verif.C31_exact",
    "Verif.C31_exact_iff",
    "Verif.C31_violated",
    "Verif.C31_hLen_partial"
   ],
   "note": "False: HExists lowers HLen (C31_violated). Proved for every history without HExists."
  },
  {
   "property": "C32",
   "status": "proved",
   "theorems": [
    "Verif.C32_hSetNX"
   ],
   "note": ""
  },
  {
   "property": "C33",
   "status": "proved",
   "theorems": [
    "Verif.C33_hDel"
   ],
   "note": ""
  },
  {
   "property": "C34",
   "status": "partial",
   "theorems": [
    "Verif.C34_exact",
    "Verif.C34_exact_error",
    "Verif.C34_violated",
    "Verif.C34_hIncrBy_partial",
    "Verif.C34_width_partial",
    "Verif.C34_width_exact"
   ],
   "note": "False: the increment is stored instead of the sum (C34_violated). The answer is proved right, on stored integers of every width. C34_width_exact: the answer for every stored type."
  },
  {
   "property": "C35",
   "status": "partial",
   "theorems": [
    "Verif.C35_exact",
    "Verif.C35_exact_error",
    "Verif.C35_violated",
    "Verif.C35_hIncrByFloat_partial",
    "Verif.C35_width_exact"
   ],
   "note": "False: the field holds the increment afterwards, and a field that is a fraction is refused (C35_violated). The answer on integer fields is proved to be the float64 sum (C35_exact, C35_exact_error). C35_width_exact: the answer for every stored type."
  },
  {
   "property": "C36",
   "status": "proved",
   "theorems": [
    "Verif.C36_hMSet",
    "Verif.C36_hMSet_any_order",
    "Verif.C36_hMGet"
   ],
   "note": ""
  },
  {
   "property": "C37",
   "status": "partial",
   "theorems": [
    "Verif.C37_exact_hVals",
    "Verif.C37_hKeys",
    "Verif.C37_violated",
    "Verif.C37_hGetAll_always_empty",
    "Verif.C37_hVals_partial"
   ],
   "note": "HKeys proved in full. HVals drops numbers and HGetAll is always empty (C37_violated)."
  },
  {
   "property": "C38",
   "status": "proved",
   "theorems": [
    "Verif.C38_hStrLen"
   ],
   "note": ""
  },
  {
   "property": "C39",
   "status": "proved",
   "theorems": [
    "Verif.C39_field_isolation"
   ],
   "note": ""
  },
  {
   "property": "C40",
   "status": "proved",
   "theorems": [
    "Verif.Conc.C40_linearizable",
    "Verif.Conc.C40_linearizable_with_readers",
    "Verif.Conc.C40_linearizable_deadlines"
   ],
   "note": "All write-locked calls, all schedules. With the read-locked calls too when no key has a deadline, or when readers do not overlap."
  },
  {
   "property": "C41",
   "status": "proved",
   "theorems": [
    "Verif.Conc.C41_no_lost_increment",
    "Verif.Conc.C41_no_lost_increment_absent"
   ],
   "note": ""
  },
  {
   "property": "C42",
   "status": "partial",
   "theorems": [
    "Verif.Conc.C42_violated",
    "Verif.Conc.C42_no_stale_read_partial",
    "Verif.Conc.C42_overlap_partial",
    "Verif.Conc.C42_one_reader_partial",
    "Verif.Conc.C42_violated_any",
    "Verif.Conc.C42_exact"
   ],
   "note": "False when two readers overlap (C42_violated). Proved for schedules without overlapping readers. C42_overlap_partial: also with any overlap in which no other goroutine is inside a call that looks at the same key, for all calls (locked or not) that do not write it; C42_one_reader_partial: in every schedule if only one goroutine looks at the key. C42_violated_any: for every expired key, any two goroutines that look at it can give the expired value. C42_exact: of programs that do not write the expired key and look at it only with Get, the expired value can be given if and only if two different goroutines call Get for it."
  },
  {
   "property": "C43",
   "status": "partial",
   "theorems": [
    "Verif.Conc.C43_violated",
    "Verif.Conc.C43_violated_length",
    "Verif.Conc.C43_fields_survive_partial",
    "Verif.Conc.C43_alone",
    "Verif.Conc.C43_violated_any",
    "Verif.Conc.C43_exact",
    "Verif.Conc.C43_many_violated",
    "Verif.Conc.C43_many_exact"
   ],
   "note": "False on an absent key (C43_violated) and for HLen (C43_violated_length). Proved for existing hashes and every schedule. C43_exact: two HSets of different fields both last in every schedule if and only if the key exists when they start; C43_violated_any: for every absent key, all fields and values. C43_many_exact, C43_many_violated: the same for any number of goroutines with any number of HSets, two of which begin with different fields."
  },
  {
   "property": "C44",
   "status": "partial",
   "theorems": [
    "Verif.Conc.C44_violated",
    "Verif.Conc.C44_slots_partial",
    "Verif.Conc.C44_violated_any",
    "Verif.Conc.C44_violated_torn",
    "Verif.Conc.C44_writer_exact",
    "Verif.Conc.C44_exact",
    "Verif.Conc.C44_torn_exact",
    "Verif.Conc.C44_writers_exact"
   ],
   "note": "False (C44_violated). Proved slot by slot. C44_violated_any: whatever the MSet and wherever it is cut, any call of another goroutine may be answered from the half written state; C44_violated_torn: for all keys and values. C44_exact: of one MSet and one MGet on keys without deadlines, exactly which answers the MGet can give (each slot from a growing first part of the pairs); C44_torn_exact: if the pairs have different keys, an answer that is neither the one before nor the one after is possible if and only if two slots of the MGet are of keys whose value changes. C44_writer_exact: the same for one goroutine with any number of Set and MSet calls; C44_writers_exact: for any number of goroutines making any number of Set and MSet calls beside one MGet: the answers are those read from growing first parts of some order of the goroutines' writes, pair by pair. Keys with deadlines, and other writing calls beside the MGet, are not characterised."
  },
  {
   "property": "C45",
   "status": "proved",
   "theorems": [
    "Verif.Resp.C45_round_trip"
   ],
   "note": ""
  },
  {
   "property": "C46",
   "status": "partial",
   "theorems": [
    "Verif.Resp.C46_violated",
    "Verif.Resp.C46_violated_large",
    "Verif.Resp.C46_any_cut_partial",
    "Verif.Resp.C46_token_cuts_partial",
    "Verif.Resp.C46_no_bulk_partial",
    "Verif.Resp.C46_result",
    "Verif.Resp.C46_exact",
    "Verif.Resp.C46_exact_place",
    "Verif.Resp.C46_message_exact"
   ],
   "note": "False for bulk strings: one Read may return fewer bytes than asked (C46_violated, C46_violated_large). Proved for messages without bulk strings, for cuts between tokens, and that a successful decode never differs in type of outcome as stated in C46_any_cut_partial. Exactly: the part one Read delivers is kept and the rest is zeros (C46_result), so a bulk reply is decoded to itself iff that rest is zeros (C46_exact), and the next reply is read from the right place iff that rest has no newline and fits the buffer (C46_exact_place). C46_message_exact: both together for any message whose lines fit the buffer, arrays in arrays included."
  },
  {
   "property": "C47",
   "status": "proved",
   "theorems": [
    "Verif.Resp.C47_binary_safe",
    "Verif.Resp.C47_injective"
   ],
   "note": ""
  },
  {
   "property": "C48",
   "status": "proved",
   "theorems": [
    "Verif.Resp.C48_pipelined"
   ],
   "note": ""
  },
  {
   "property": "C49",
   "status": "partial",
   "theorems": [
    "Verif.Resp.C49_violated",
    "Verif.Resp.C49_total_partial",
    "Verif.Resp.C49_exact"
   ],
   "note": "False: a negative length panics (C49_violated). Proved for every stream whose announced lengths are not negative/huge. Exactly for a bulk header in front of anything: a panic iff the length is below -1 or beyond the address space (C49_exact)."
  },
  {
   "property": "C50",
   "status": "proved",
   "theorems": [
    "Verif.Resp.C50_saved",
    "Verif.Resp.C50_short"
   ],
   "note": ""
  },
  {
   "property": "C51",
   "status": "partial",
   "theorems": [
    "Verif.Client.C51_failures",
    "Verif.Client.C51_pairs",
    "Verif.Client.C51_violated",
    "Verif.Client.C51_integer_text",
    "Verif.Client.C51_success_partial",
    "Verif.Client.C51_status_partial",
    "Verif.Client.C51_exact"
   ],
   "note": "False for some replies (C51_violated). Proved for failures, and for success replies per result kind. C51_exact: exactly which documented success replies reach the caller."
  },
  {
   "property": "C52",
   "status": "partial",
   "theorems": [
    "Verif.Client.C52_violated",
    "Verif.Client.C52_commands_partial",
    "Verif.Client.C52_distinct",
    "Verif.Client.C52_exact"
   ],
   "note": "False for the methods that send another command name (C52_violated). Proved for all the others; C52_distinct. C52_exact: the documented command arrives exactly for the methods other than SetEX, PSetEX, IncrBy."
  },
  {
   "property": "C53",
   "status": "proved",
   "theorems": [
    "Verif.Pool.C53_capacity",
    "Verif.Pool.C53_capacity_reached",
    "Verif.Pool.C53_exclusive"
   ],
   "note": ""
  },
  {
   "property": "C54",
   "status": "partial",
   "theorems": [
    "Verif.Pool.C54_put_never_blocks",
    "Verif.Pool.C54_get_never_blocks_locked",
    "Verif.Pool.C54_violated",
    "Verif.Pool.C54_conserved_partial",
    "Verif.Pool.C54_exact",
    "Verif.Pool.C54_lost_once"
   ],
   "note": "Put never blocks is proved in full. Conservation is false after a failed open handler and with Close (C54_violated); proved otherwise. C54_exact: conserved if and only if no open handler failed and Close took nothing; C54_lost_once: at most one connection is ever dropped."
  },
  {
   "property": "C55",
   "status": "partial",
   "theorems": [
    "Verif.Pool.C55_violated",
    "Verif.Pool.C55_violated_forever",
    "Verif.Pool.C55_can_obtain_partial",
    "Verif.Pool.C55_exact"
   ],
   "note": "False: a failed dial leaves the mutex locked for good (C55_violated, C55_violated_forever). Proved: without failure a caller can always still be served. C55_exact says in exactly which reachable states an idle caller can still obtain a connection."
  },
  {
   "property": "C56",
   "status": "partial",
   "theorems": [
    "Verif.Pool.C56_violated",
    "Verif.Pool.C56_closes_idle_partial",
    "Verif.Pool.C56_exact"
   ],
   "note": "False: Close returns only if closing a connection fails (C56_violated). Proved: it closes every idle connection. C56_exact: from any state, Close can still return (with such an error) if and only if a connection is idle, in use or on its way into the pool, or one may still be dialled and a caller outside Close is there to do it."
  },
  {
   "property": "C57",
   "status": "proved",
   "theorems": [
    "Verif.Lzf.C57_inverse"
   ],
   "note": ""
  },
  {
   "property": "C58",
   "status": "partial",
   "theorems": [
    "Verif.Lzf.C58_violated",
    "Verif.Lzf.C58_stays_inside_partial",
    "Verif.Lzf.C58_one_byte_partial",
    "Verif.Lzf.C58_fits",
    "Verif.Lzf.C58_exact"
   ],
   "note": "False for inputs of one byte: the byte behind it is read (C58_violated). Proved for every other input. C58_exact: exactly the one-byte inputs fault."
  },
  {
   "property": "C59",
   "status": "proved",
   "theorems": [
    "Verif.Lzf.C59_stays_inside",
    "Verif.Lzf.C59_empty"
   ],
   "note": "For inputs of at least one byte; C59_empty shows that the empty input is read out of bounds."
  },
  {
   "property": "C60",
   "status": "proved",
   "theorems": [
    "Verif.Lzf.C60_decodes",
    "Verif.Lzf.C60_only"
   ],
   "note": "With the converse: nothing else is accepted."
  },
  {
   "property": "C61",
   "status": "partial",
   "theorems": [
    "Verif.Lzf.C61_violated",
    "Verif.Lzf.C61_violated_empty",
    "Verif.Lzf.C61_compressed_partial",
    "Verif.Lzf.C61_incompressible_partial",
    "Verif.Lzf.C61_compress_total",
    "Verif.Lzf.C61_decompress_exact",
    "Verif.Lzf.C61_exact",
    "Verif.Lzf.C61_runs_partial"
   ],
   "note": "False for text that does not compress and for the empty string (C61_violated, C61_violated_empty). C61_decompress_exact gives the result of DeCompress for every text: an LZF stream that fits gives its output filled up with zero bytes, anything else comes back. C61_exact: the round trip of a non-empty text works if and only if it compressed, or is no stream that fits, or is its own output. Proved for every text that compressed, and for incompressible text that is not itself a stream."
  },
  {
   "property": "C62",
   "status": "partial",
   "theorems": [
    "Verif.Rdb.C62_violated",
    "Verif.Rdb.C62_violated_always",
    "Verif.Rdb.C62_short_partial",
    "Verif.Rdb.C62_exact"
   ],
   "note": "False for the four and eight byte forms, which are always read as 0 (C62_violated, C62_violated_always). Proved for the one and two byte forms, in any blocks. C62_exact: a length is read right if and only if it takes one or two bytes or is zero."
  },
  {
   "property": "C63",
   "status": "partial",
   "theorems": [
    "Verif.Rdb.C63_violated",
    "Verif.Rdb.C63_violated_long",
    "Verif.Rdb.C63_violated_negative",
    "Verif.Rdb.C63_supported_partial",
    "Verif.Rdb.C63_small_partial",
    "Verif.Rdb.C63_violated_lzf",
    "Verif.Rdb.C63_exact"
   ],
   "note": "False for negative 16/32-bit integers and for lengths of four or eight bytes (C63_violated*); a compressed string with such a length panics (C63_violated_lzf). Proved for all other encodings, including LZF. C63_exact: an encoded string inside its block is read right if and only if it is one of those, or empty."
  },
  {
   "property": "C64",
   "status": "partial",
   "theorems": [
    "Verif.Rdb.C64_violated",
    "Verif.Rdb.C64_violated_file",
    "Verif.Rdb.C64_encoded_partial",
    "Verif.Rdb.C64_uncut_partial",
    "Verif.Rdb.C64_result",
    "Verif.Rdb.C64_exact",
    "Verif.Rdb.C64_exact_place"
   ],
   "note": "False for plain strings: one Read is used, the missing part is zero bytes (C64_violated, C64_violated_file). Proved for integer and compressed strings on arbitrary bytes, and for plain strings within a block. C64_result: the result in every case. C64_exact: right if and only if the part outside the block in which the string begins is zero bytes; C64_exact_place: the reader goes on at the right place if and only if there is no such part."
  },
  {
   "property": "C65",
   "status": "partial",
   "theorems": [
    "Verif.Rdb.C65_violated",
    "Verif.Rdb.C65_supported_partial",
    "Verif.Rdb.C65_small_partial",
    "Verif.Rdb.C65_replayed_partial",
    "Verif.Rdb.C65_exact",
    "Verif.Rdb.C65_packed_zset_exact"
   ],
   "note": "False: the empty key is rejected, and see C62-C64, C68, C70-C72. C65_exact says for which keys and values it holds, in files whose other records are supported and in which no string crosses the end of a block: exactly when every entry is one of a list (strings read right, sets of them, packed lists of kept elements, and so on); one entry outside it spoils the load. For sorted sets packed in a list the condition is stated with the model's own ziplistLoad (C65_packed_zset_exact: without it, for elements that are read as they are); packed maps with unused bytes behind a later entry are left out. C65_replayed_partial runs the emitted commands in a reference server."
  },
  {
   "property": "C66",
   "status": "partial",
   "theorems": [
    "Verif.Rdb.C66_replayed_partial",
    "Verif.Rdb.C66_violated_relative",
    "Verif.Rdb.C66_any_time",
    "Verif.Rdb.C66_exact",
    "Verif.Rdb.C66_millis_partial",
    "Verif.Rdb.C66_violated",
    "Verif.Rdb.C66_next_key_partial"
   ],
   "note": "False: seconds are multiplied in 32 bits, and an absolute time is sent as a duration (C66_violated*). Proved: one command, for the next key only, with the recorded time where it does not overflow. C66_any_time: what is sent for every time. C66_exact: a time in seconds is right if and only if it is before 2^32 milliseconds; C66_millis_partial: times in milliseconds are right for all 64 bits. C66_replayed_partial: what deadline each key of a supported file has at a server; C66_violated_relative: only keys without a deadline end up right, unless loaded at time 0."
  },
  {
   "property": "C67",
   "status": "partial",
   "theorems": [
    "Verif.Rdb.C67_exact",
    "Verif.Rdb.C67_byte_partial",
    "Verif.Rdb.C67_terminates_partial",
    "Verif.Rdb.C67_violated",
    "Verif.Rdb.C67_violated_rest",
    "Verif.Rdb.C67_marker_partial",
    "Verif.Rdb.C67_truncated_partial"
   ],
   "note": "False: module and stream records end the load with success (C67_violated*). Proved: termination on every file; success only at an end marker or such a record, so never on a file without the bytes 255, 6, 7, 15; a supported file cut off anywhere is never accepted. C67_exact: on every file, a load succeeds just if it came to the end marker or to a record of a module or a stream, never both; so the claim fails on exactly the files whose whole records lead to such a record."
  },
  {
   "property": "C68",
   "status": "partial",
   "theorems": [
    "Verif.Rdb.C68_violated",
    "Verif.Rdb.C68_violated_list",
    "Verif.Rdb.C68_violated_hash",
    "Verif.Rdb.C68_violated_zset",
    "Verif.Rdb.C68_supported_partial",
    "Verif.Rdb.C68_exact_list",
    "Verif.Rdb.C68_violated_hash_any",
    "Verif.Rdb.C68_exact_zset"
   ],
   "note": "False for plain lists (reversed), hashes (sent as zAdd) and sorted sets (score and member swapped). Proved for the other supported encodings with respect to a reference server. Exactly: a plain list is right if and only if it reads the same backwards (C68_exact_list), a plain hash never is (C68_violated_hash_any), a plain sorted set if and only if swapping members and scores gives the same set (C68_exact_zset)."
  },
  {
   "property": "C69",
   "status": "partial",
   "theorems": [
    "Verif.Rdb.C69_exact",
    "Verif.Rdb.C69_violated",
    "Verif.Rdb.C69_violated_tags",
    "Verif.Rdb.C69_violated_binary",
    "Verif.Rdb.C69_text_partial",
    "Verif.Rdb.C69_round_trip_partial"
   ],
   "note": "False for infinities, NaN and binary scores (C69_violated*). Proved for text scores in any blocks. C69_exact: a score is read right if and only if it is written as text or is a binary positive zero."
  },
  {
   "property": "C70",
   "status": "partial",
   "theorems": [
    "Verif.Rdb.C70_exact",
    "Verif.Rdb.C70_violated",
    "Verif.Rdb.C70_int64_partial",
    "Verif.Rdb.C70_small_partial",
    "Verif.Rdb.C70_exactly_partial"
   ],
   "note": "False for negative elements of 2 and 4 byte sets (sign lost). Proved for 8 byte sets and for non-negative elements. C70_exact: right if and only if the elements take 8 bytes or none is negative."
  },
  {
   "property": "C71",
   "status": "partial",
   "theorems": [
    "Verif.Rdb.C71_exact",
    "Verif.Rdb.C71_no_integers_partial",
    "Verif.Rdb.C71_violated",
    "Verif.Rdb.C71_violated_long",
    "Verif.Rdb.C71_violated_int64",
    "Verif.Rdb.C71_short_partial",
    "Verif.Rdb.C71_count_partial",
    "Verif.Rdb.C71_violated_dropped",
    "Verif.Rdb.C71_violated_last"
   ],
   "note": "False for elements longer than 63 bytes and for integers wider than 4 bits. Proved for short strings and immediate integers. C71_exact: the list comes out right if and only if all its elements are of that kind, but for texts that consist of their own length byte (Kept); C71_no_integers_partial: never with another integer, whatever its value. C71_violated_dropped: any 64 bit integer from -2^40 to -1 ends the list without notice; C71_violated_last: any from 0 to 2^40-1 at the end of the list makes the loader panic."
  },
  {
   "property": "C72",
   "status": "partial",
   "theorems": [
    "Verif.Rdb.C72_violated",
    "Verif.Rdb.C72_violated_silent",
    "Verif.Rdb.C72_one_partial",
    "Verif.Rdb.C72_spaced_partial",
    "Verif.Rdb.C72_exact",
    "Verif.Rdb.C72_lucky"
   ],
   "note": "False for two entries: the byte between entries is skipped (C72_violated*). Proved for at most one entry; C72_spaced_partial shows the layout the loader does read, for any number of entries. C72_exact: with no unused bytes behind the first entry, a map loads right if and only if it has at most one entry; C72_lucky: unused bytes can make two entries come out right."
  },
  {
   "property": "C73",
   "status": "partial",
   "theorems": [
    "Verif.Rdb.C73_one_exact",
    "Verif.Rdb.C73_violated",
    "Verif.Rdb.C73_violated_again",
    "Verif.Rdb.C73_violated_panics",
    "Verif.Rdb.C73_first_found_partial",
    "Verif.Rdb.C73_first_again_partial",
    "Verif.Rdb.C73_count_partial",
    "Verif.Rdb.C73_others_partial",
    "Verif.Rdb.C73_violated_phantom",
    "Verif.Rdb.C73_spaced_partial"
   ],
   "note": "False: entries lack the free byte, so later lookups misread: keys are lost, found twice, found though never put in, or the lookup panics (C73_violated*). Proved for the first key; C73_one_exact: for a map with one entry, exactly when looking for another key panics; C73_spaced_partial shows the layout Lookup does read."
  },
  {
   "property": "C74",
   "status": "partial",
   "theorems": [
    "Verif.Repl.C74_violated",
    "Verif.Repl.C74_violated_rpush",
    "Verif.Repl.C74_violated_hmset",
    "Verif.Repl.C74_set_partial",
    "Verif.Repl.C74_unsupported_partial",
    "Verif.Repl.C74_error_no_change_partial",
    "Verif.Repl.C74_panics_partial",
    "Verif.Repl.C74_exact"
   ],
   "note": "False: short SET and every rPush panic, hmSet is silently dropped. Proved: SET has the effect of Set, unknown commands are reported and change nothing, the exact set of panicking messages. C74_exact: exactly what is accepted and what it does."
  },
  {
   "property": "C75",
   "status": "partial",
   "theorems": [
    "Verif.Repl.C75_violated",
    "Verif.Repl.C75_canonical_partial",
    "Verif.Repl.C75_verbatim_partial",
    "Verif.Repl.C75_exact",
    "Verif.Repl.C75_heartbeat"
   ],
   "note": "False for non-canonical numbers. Proved for streams of any length up to the canonical text of numbers (exactly, for verbatim values). C75_exact: exactly the canonical texts are shown as the master has them."
  },
  {
   "property": "C76",
   "status": "partial",
   "theorems": [
    "Verif.Repl.C76_violated_other",
    "Verif.Repl.C76_exact",
    "Verif.Repl.C76_violated",
    "Verif.Repl.C76_tagged_partial",
    "Verif.Repl.C76_snapshot_partial"
   ],
   "note": "False: the receiver tags every message of the stream with database 0. Proved: in every schedule the cache is the result of the messages tagged with the configured database, in order. C76_exact: with database 0 everything in the stream is applied, with any other nothing (C76_violated_other)."
  },
  {
   "property": "C77",
   "status": "partial",
   "theorems": [
    "Verif.Repl.C77_violated",
    "Verif.Repl.C77_one_command_violated",
    "Verif.Repl.C77_first_error_partial",
    "Verif.Repl.C77_supported_partial",
    "Verif.Repl.C77_violated_closed",
    "Verif.Repl.C77_exact",
    "Verif.Repl.C77_other_database_partial"
   ],
   "note": "False: the handler sends to the channel only it empties. Exactly (C77_exact): it can get stuck iff a second refused message is reached without a panic; or one refused message is reached and the snapshot loads with at most 10000 messages behind it; or, on database 0, the snapshot loads and nothing panics (the loss of the connection is enough). Proved: never stuck in any schedule while all commands are supported, nor before a second error arises, nor on another database with a snapshot without refused messages."
  },
  {
   "property": "C78",
   "status": "partial",
   "theorems": [
    "Verif.Repl.C78_violated"
   ],
   "note": "False for every option and key: the cache of the client is the zero value, Get panics."
  },
  {
   "property": "C79",
   "status": "partial",
   "theorems": [
    "Verif.Repl.C79_exact",
    "Verif.Repl.C79_all_types_partial",
    "Verif.Repl.C79_violated",
    "Verif.Repl.C79_end_to_end_partial",
    "Verif.Repl.C79_can_catch_up_partial"
   ],
   "note": "False: the cache New makes is unusable, the first assignment crashes the process. Proved from bytes to Get for a usable cache, supported string snapshots and streams of assignments, in every schedule; and that catching up is always possible. C79_exact: whatever the master sends, a replica that has caught up shows exactly the last assignments among it. C79_all_types_partial: from the bytes to Get for supported snapshots with all types, deadlines and databases and any stream."
  },
  {
   "property": "C80",
   "status": "proved",
   "theorems": [
    "Verif.C80_atoi_itoa",
    "Verif.C80_atoi_accepts",
    "Verif.C80_atoi_rejects",
    "Verif.C80_itoa_injective"
   ],
   "note": ""
  },
  {
   "property": "C81",
   "status": "proved",
   "theorems": [
    "Verif.C81_format_shortest",
    "Verif.C81_format_special",
    "Verif.C81_parse_format",
    "Verif.C81_format_injective",
    "Verif.C81_parse_decimal_nearest"
   ],
   "note": ""
  },
  {
   "property": "C82",
   "status": "proved",
   "theorems": [
    "Verif.C82_add_correctly_rounded",
    "Verif.C82_nearest_exists",
    "Verif.C82_ofInt_correctly_rounded",
    "Verif.C82_nan_iff",
    "Verif.C82_infinite",
    "Verif.C82_incrByFloat"
   ],
   "note": "Pairs with NaN or an infinity: C82_nan_iff, C82_infinite."
  },
  {
   "property": "C83",
   "status": "partial",
   "theorems": [
    "Verif.Pool.C83_violated",
    "Verif.Pool.C83_waits_for_somebody_partial",
    "Verif.Pool.C83_exact",
    "Verif.Pool.C83_violated_closed"
   ],
   "note": "False: the dialled connection can be taken by a third party (C83_violated). Proved: a waiting caller implies that somebody else has a connection in hand. C83_exact: without Close it can happen if and only if capacity and number of callers are at least two; C83_violated_closed: with Close, a lone caller can wait for ever though nothing is open."
  },
  {
   "property": "C84",
   "status": "partial",
   "theorems": [
    "Verif.Lzf.C84_expansion",
    "Verif.Lzf.C84_enough_room",
    "Verif.Lzf.C84_violated",
    "Verif.Lzf.C84_documented_partial",
    "Verif.Lzf.C84_room_enough",
    "Verif.Lzf.C84_room_exact",
    "Verif.Lzf.C84_room_value",
    "Verif.Lzf.C84_fresh",
    "Verif.Lzf.C84_tight",
    "Verif.Lzf.C84_exact",
    "Verif.Lzf.C84_exact_lengths",
    "Verif.Lzf.C84_violated_room"
   ],
   "note": "False in both parts. The documented 104% fails exactly at the lengths 2-25, 33-50, 65-75 and 97-100 (C84_exact, C84_exact_lengths); at every length there is text that takes all ceil(n/32) extra bytes (C84_tight). With room for just those bytes the compressor can fail (C84_violated_room). The room exactly (C84_room_exact): it succeeds with all text of length n just when it has n + 2 bytes for n below 5 and n + 3 + (n+28)/32 bytes from 5 on, whatever the table holds."
  },
  {
   "property": "C85",
   "status": "proved",
   "theorems": [
    "Verif.Repl.C85_snapshot_saved"
   ],
   "note": "Proved for all snapshots and all cuts of the byte stream."
  },
  {
   "property": "C86",
   "status": "partial",
   "theorems": [
    "Verif.Repl.C86_violated",
    "Verif.Repl.C86_violated_new",
    "Verif.Repl.C86_ping_partial",
    "Verif.Repl.C86_violated_any",
    "Verif.Repl.C86_new_exact",
    "Verif.Repl.C86_text_partial",
    "Verif.Repl.C86_other_partial"
   ],
   "note": "False: every message that answers SYNC is saved as the snapshot (C86_violated_any), and New succeeds exactly if its text loads (C86_new_exact). Proved for the ping, and for New on replies without the bytes 255, 6, 7, 15 (so nil, numbers, arrays, refusals in ASCII)."
  },
  {
   "property": "C87",
   "status": "partial",
   "theorems": [
    "Verif.Repl.C87_violated",
    "Verif.Repl.C87_exact"
   ],
   "note": "False: a line feed before the snapshot ends the attempt with an error; saved exactly if there is none (C87_exact)."
  },
  {
   "property": "C88",
   "status": "partial",
   "theorems": [
    "Verif.Repl.C88_violated",
    "Verif.Repl.C88_exact",
    "Verif.Repl.C88_small_partial",
    "Verif.Repl.C88_violated_zero"
   ],
   "note": "False. Exactly (C88_exact): New can be kept from returning iff a message of the snapshot makes the handler panic (with the zero cache of New: any assignment, C88_violated_zero) or two messages are refused among those that more than ten thousand others follow. Proved: up to 10001 messages without a panic New can always still return."
  },
  {
   "property": "C89",
   "status": "partial",
   "theorems": [
    "Verif.Repl.C89_exact",
    "Verif.Repl.C89_no_invention",
    "Verif.Repl.C89_prefix_partial",
    "Verif.Repl.C89_violated",
    "Verif.Repl.C89_monotone",
    "Verif.Repl.C89_never_back_partial"
   ],
   "note": "C89_violated: numbers in another spelling. Proved for a usable cache, supported snapshots and streams of assignments, up to the canonical text of numbers, at one moment (C89_prefix_partial) and at two (C89_never_back_partial). C89_monotone: for all streams, the cache at two moments is the result of two first parts of what was sent, the later no shorter. C89_exact: for all snapshots and all streams, without restriction: at two moments the assignments of two first parts, the later no shorter, and nothing else is visible. C89_no_invention: what Get shows was assigned."
  },
  {
   "property": "C90",
   "status": "partial",
   "theorems": [
    "Verif.C90_conforms_partial",
    "Verif.C90_violated",
    "Verif.C90_exact",
    "Verif.C90_run_exact",
    "Verif.C90_alike"
   ],
   "note": "Exact for every call but the two float counters (their reference is simplified) and the list calls: Ref.Alike says of each call on a cache in agreement with the reference whether it answers as Redis and nothing safe shows a difference afterwards (C90_exact), and the same for whole histories (C90_run_exact). C90_violated gives a diverging history for each excluded situation."
  },
  {
   "property": "C91",
   "status": "partial",
   "theorems": [
    "Verif.Client.C91_bulk_exact",
    "Verif.Client.C91_exact",
    "Verif.Client.C91_run_exact",
    "Verif.Client.C91_paired_partial",
    "Verif.Client.C91_late_violated",
    "Verif.Client.C91_forged_violated",
    "Verif.Client.C91_violated"
   ],
   "note": "False: a value containing a newline, cut before it, supplies the answer to the next call (C91_violated, C91_forged_violated), and all later calls on that connection are answered one late (C91_late_violated). C91_exact: a call on a connection in step gets its reply and leaves the connection in step if and only if of each payload in the reply the part that has not arrived when it is read is zero and fits the buffer (Carried); C91_bulk_exact separates the two for a single payload; C91_run_exact: the same for whole histories on any number of connections. Replies cut between tokens, and replies without payloads of more than one byte cut anywhere, are such (carried_token, carried_short)."
  },
  {
   "property": "C92",
   "status": "partial",
   "theorems": [
    "Verif.Client.C92_sessions",
    "Verif.Client.C92_exact",
    "Verif.Client.C92_answers_partial",
    "Verif.Client.C92_violated",
    "Verif.Client.C92_unreachable_violated"
   ],
   "note": "False: dead connections return to the pool and every later call fails for ever (C92_violated); after a failed first dial every later call hangs (C92_unreachable_violated). Proved while no connection is lost. C92_sessions gives the answers of every session; C92_exact: all calls are answered if and only if the first one finds a server that can be reached and accepts the client and no call follows a loss."
  },
  {
   "property": "C93",
   "status": "partial",
   "theorems": [
    "Verif.Client.C93_dial",
    "Verif.Client.C93_configured",
    "Verif.Client.C93_select_violated",
    "Verif.Client.C93_exact",
    "Verif.Client.C93_select_exact",
    "Verif.Client.C93_one_connection_exact"
   ],
   "note": "Proved for all sessions without Select (C93_configured) and exactly at the dial (C93_dial). Select moves only the connection it happens to use (C93_select_violated). C93_exact: on a pool of n open connections call j uses connection j mod n, whose database is moved just by the Selects before it that used the same one; C93_one_connection_exact: all calls follow a Select if and only if the pool holds one connection. Calls are one after another; of goroutines at the same time only C93_configured speaks."
  },
  {
   "property": "C94",
   "status": "partial",
   "theorems": [
    "Verif.Client.C94_remote_partial",
    "Verif.Client.C94_violated",
    "Verif.Client.C94_seen_partial",
    "Verif.Client.C94_exact",
    "Verif.Client.C94_violated_any"
   ],
   "note": "Proved for Set, Get, GetSet, StrLen, Append, SetRange, GetRange, Incr, Decr, DecrBy, MSet, MSetNX, MGet with at least one key. False of SetEX, PSetEX, IncrBy, SetNX (C94_violated). C94_seen_partial says what the caller sees and what the server keeps for every method and every session on a connection that is not lost; C94_exact: a call shows its documented answer if and only if it is one of these methods, or IncrByFloat refused or arriving at 0; C94_violated_any: the failures for all arguments and states."
  },
  {
   "property": "C95",
   "status": "partial",
   "theorems": [
    "Verif.Client.C95_same_answers_partial",
    "Verif.Client.C95_violated",
    "Verif.Client.C95_alike_partial",
    "Verif.Client.C95_exact"
   ],
   "note": "Proved for methods of C94 and every history whose calls are alike in the sense of C90 (C95_alike_partial). Exact: any call that is not alike shows in the answers as soon as the keys are read again (C95_exact, for replies the network carries). False otherwise, for instance for numbers in another spelling (C95_violated)."
  },
  {
   "property": "C96",
   "status": "proved",
   "theorems": [
    "Verif.C96_hExists"
   ],
   "note": ""
  },
  {
   "property": "C97",
   "status": "proved",
   "theorems": [
    "Verif.C97_names",
    "Verif.C97_key_names"
   ],
   "note": ""
  },
  {
   "property": "C98",
   "status": "proved",
   "theorems": [
    "Verif.C98_time_shift"
   ],
   "note": "Clock readings after the year 1, where the zero time of Go is."
  },
  {
   "property": "C99",
   "status": "proved",
   "theorems": [
    "Verif.C99_key_origin",
    "Verif.C99_value_origin",
    "Verif.C99_field_origin"
   ],
   "note": ""
  },
  {
   "property": "C100",
   "status": "proved",
   "theorems": [
    "Verif.C100_any_interleaving",
    "Verif.C100_commute"
   ],
   "note": ""
  },
  {
   "property": "C101",
   "status": "proved",
   "theorems": [
    "Verif.Conc.Full.C101_no_deadlock",
    "Verif.Conc.Full.C101_no_endless_run",
    "Verif.Conc.Full.C101_every_call_returns"
   ],
   "note": "Fairness: the scheduler does not idle forever while some goroutine can run. Finitely many goroutines. Readers are kept out whenever a writer waits, the strictest reading of RWMutex."
  },
  {
   "property": "C102",
   "status": "proved",
   "theorems": [
    "Verif.Conc.C102_alone",
    "Verif.Conc.Full.C102_guarded",
    "Verif.Conc.Full.C102_quiet",
    "Verif.Conc.Full.C102_with_sweep",
    "Verif.Conc.Full.C102_own_keys",
    "Verif.Conc.Full.C102_real_time",
    "Verif.Conc.Full.C102_real_time_quiet",
    "Verif.Conc.Full.C102_real_time_locked"
   ],
   "note": "Conflict is defined by the keys a call names and may change; a read-locked call may change a key that can have a deadline (it deletes it when stale). An MGet of several keys needs keys without deadlines (see C103). C102_real_time: each call also takes effect between the clock readings at which it was made (took its lock) and returned, so both orders keep the real-time order."
  },
  {
   "property": "C103",
   "status": "partial",
   "theorems": [
    "Verif.Conc.Full.C103_violated",
    "Verif.Conc.Full.C103_snapshot_partial",
    "Verif.Conc.C103_exact",
    "Verif.Conc.C103_writer_exact",
    "Verif.Conc.C103_writers_exact",
    "Verif.Conc.Full.C103_real_time_partial"
   ],
   "note": "False when a deadline passes between two reads, even with one goroutine. For a goroutine that is alone C103_exact says for which keys it holds: deadlines fall along the list. Beside a goroutine that makes Set and MSet calls of different keys, for keys without deadlines, C103_writer_exact: every MGet shows one moment if and only if of any two slots whose keys change the later one is written first. C103_writers_exact: beside any number of such goroutines, with a moment for when each goroutine has made some first part of its writes: if and only if the same holds of each goroutine. With any other goroutines: C103_snapshot_partial, keys without deadlines. C103_real_time_partial puts the moment between the call and the return of the MGet and names the calls before it."
  },
  {
   "property": "C104",
   "status": "proved",
   "theorems": [
    "Verif.Conc.Full.C104_isolated",
    "Verif.Conc.Full.C104_alone",
    "Verif.Conc.Full.C104_untouched"
   ],
   "note": "The goroutines on the keys U obey C102 among themselves; the others are not restricted except that they do not name keys of U (so Flush and the sweep are not among them)."
  },
  {
   "property": "C105",
   "status": "proved",
   "theorems": [
    "Verif.Conc.Full.C105_get",
    "Verif.Conc.Full.C105_mGet",
    "Verif.Conc.Full.C105_hGet",
    "Verif.Conc.Full.C105_hMGet",
    "Verif.Conc.Full.C105_listing"
   ],
   "note": "Runs start from an empty cache. A key for which Append, SetRange or a counter call is made is excluded for the string answers; hash counters store the increment, so their fields are covered."
  },
  {
   "property": "C106",
   "status": "partial",
   "theorems": [
    "Verif.Client.Many.C106_own_reply_partial",
    "Verif.Client.Many.C106_executed_was_called_partial",
    "Verif.Client.Many.C106_at_most_once_partial",
    "Verif.Client.Many.C106_sequential_partial",
    "Verif.Client.Many.C106_one_store_partial",
    "Verif.Client.Many.C106_bounded_partial",
    "Verif.Client.Many.C106_no_deadlock_partial",
    "Verif.Client.Many.C106_violated",
    "Verif.Client.Many.C106_exact"
   ],
   "note": "Under the network assumption of C91 (replies arrive in pieces the reader can join); C106_violated shows the confusion otherwise, and C106_exact that the assumption, for connections that are up, is just what is needed: whatever the network may do, all calls of all runs read their own replies and leave connections in step if and only if every reply that can come is one the reader can join. After a failed dial the pool's mutex stays locked (C55), so progress is claimed only without one."
  },
  {
   "property": "C107",
   "status": "proved",
   "theorems": [
    "Verif.Resp.C107_in_order",
    "Verif.Resp.C107_received",
    "Verif.Resp.C107_reliable"
   ],
   "note": ""
  },
  {
   "property": "C108",
   "status": "partial",
   "theorems": [
    "Verif.Repl.C108_new_working",
    "Verif.Repl.C108_new_partial",
    "Verif.Resp.C108_exact_partial",
    "Verif.Resp.C108_violated",
    "Verif.Resp.C108_working_disk"
   ],
   "note": "False of SyncWithRedis: the error of the last write (up to 4096 bytes) is dropped (C108_violated, C108_exact_partial). Proved of New for supported snapshots: Load finds out (C108_new_partial)."
  },
  {
   "property": "C109",
   "status": "partial",
   "theorems": [
    "Verif.Repl.C109_offset",
    "Verif.Repl.C109_id",
    "Verif.Repl.C109_acks_partial",
    "Verif.Repl.C109_after_load_partial",
    "Verif.Repl.C109_violated",
    "Verif.Repl.C109_exact"
   ],
   "note": "Partial: identity and position of the snapshot are proved to be read from any place in it, and every acknowledgement in every schedule is proved to carry the snapshot's position. The commands received since are not counted: refuted by C109_violated. C109_exact: an acknowledgement is right exactly if nothing was received since the snapshot."
  },
  {
   "property": "C110",
   "status": "partial",
   "theorems": [
    "Verif.Whole.C110_converges_partial",
    "Verif.Whole.C110_prefix_partial",
    "Verif.Whole.C110_own_write_partial",
    "Verif.Whole.C110_can_catch_up_partial",
    "Verif.Whole.C110_violated",
    "Verif.Whole.C110_exact",
    "Verif.Whole.C110_no_invention",
    "Verif.Whole.C110_violated_others",
    "Verif.Whole.C110_violated_append"
   ],
   "note": "Partial: proved at every moment at which the replica has caught up, for all schedules (C110_converges_partial, C110_own_write_partial), that it shows a first part of the master's history at every moment, also when the connection broke with messages on their way (C110_prefix_partial), and that it can catch up while the connection stands (C110_can_catch_up_partial). Immediately after Set it is false (C110_violated). The cache is assumed usable (C78), strings without deadlines in database 0, numbers up to spelling. For all methods, all ways in which the master passes on and all networks: C110_exact says what Get shows at two moments and when caught up (the assignments that arrive, nothing else); C110_no_invention; what other methods write is never shown (C110_violated_others, with the run C110_violated_append)."
  },
  {
   "property": "C111",
   "status": "partial",
   "theorems": [
    "Verif.Whole.C111_caught_up_partial",
    "Verif.Whole.C111_violated",
    "Verif.Whole.C111_exact"
   ],
   "note": "`Client.Get` only looks into the local cache (`C111_violated`). Proved for every run: once the replica has caught up, `Get` misses exactly the keys the master does not hold. C111_exact: for all methods, a caught-up Get misses exactly the keys no assignment arrived for."
  },
  {
   "property": "C112",
   "status": "partial",
   "theorems": [
    "Verif.Whole.C112_lost_for_good",
    "Verif.Whole.C112_settled",
    "Verif.Whole.C112_violated",
    "Verif.Whole.C112_exact"
   ],
   "note": "False: nothing connects again. Proved for all runs and all continuations: after the loss `Get` keeps showing a first part of what was set before (`C112_lost_for_good`) and stops changing (`C112_settled`). C112_exact: the same for all methods and whatever the master passes on."
  },
  {
   "property": "C113",
   "status": "proved",
   "theorems": [
    "Verif.C113_literal",
    "Verif.C113_denotes_unique",
    "Verif.C113_words",
    "Verif.C113_nothing_else",
    "Verif.C113_get_set"
   ],
   "note": "Both directions: every literal of the grammar is read as the nearest float64 (or refused beyond the largest), and everything read as a number is in the grammar. Literals with an exponent of 100000 or more and over 1000 mantissa digits are outside (the library cuts the exponent off)."
  },
  {
   "property": "C114",
   "status": "partial",
   "theorems": [
    "Verif.Conc.Race.C114_no_race_partial",
    "Verif.Conc.Race.C114_locked",
    "Verif.Conc.Race.C114_lookups",
    "Verif.Conc.Race.C114_setnx",
    "Verif.Conc.Race.C114_pair_exact",
    "Verif.Conc.Race.C114_violated",
    "Verif.Conc.Race.C114_flush_violated",
    "Verif.Conc.Race.C114_same_machine",
    "Verif.Conc.Race.C114_hash_lists_violated",
    "Verif.Conc.Race.C114_create_lists_violated",
    "Verif.Conc.Race.C114_third_lists_violated",
    "Verif.Conc.Race.C114_hash_lists_exact",
    "Verif.Conc.Race.C114_flush_lists_violated",
    "Verif.Conc.Race.C114_lists_exact",
    "Verif.Conc.Race.C114_first_violated",
    "Verif.Conc.Race.C114_setnx_lists_exact",
    "Verif.Conc.Race.C114_new_lists_exact"
   ],
   "note": "False of the code: hash calls take no lock and change the plain int `length`, Flush assigns the map fields under a lock the hash calls do not take (C114_violated, C114_flush_violated). Proved where it holds: C114_no_race_partial, and C114_pair_exact gives the exact set of racing pairs. For any number of goroutines with any lists of calls: C114_lists_exact (no size of a hash shared: a race if and only if one calls Flush and another a call without lock, from every state), C114_flush_lists_violated, C114_first_violated (the first calls of two goroutines clash). C114_hash_lists_exact: for lists of HSet, HMSet, HExists, HLen and the reading calls, on hashes that exist without deadline, a race if and only if two goroutines use the size of one hash and one changes it. C114_new_lists_exact: the same where hashes may be absent at first, as in a new cache: also the hash must exist or some goroutine call HSet or HMSet of it. C114_setnx_lists_exact: lists as in C114_hash_lists_exact with HSetNX as well: the two uses must not be HSetNX of a field that is there at first, nor both HSetNX of the same field. Later calls by HIncrBy, HIncrByFloat and HDel, which may or may not come to the size, are not characterised in lists."
  },
  {
   "property": "C115",
   "status": "partial",
   "theorems": [
    "Verif.Pool.Race.C115_exact",
    "Verif.Pool.Race.C115_size_exact",
    "Verif.Pool.Race.C115_violated",
    "Verif.Pool.Race.C115_full_partial",
    "Verif.Pool.Race.C115_warm_partial",
    "Verif.Pool.Race.C115_pool_unharmed",
    "Verif.Pool.Race.C115_warm_case"
   ],
   "note": "False as stated: `Put`, `create` and `Close` have value receivers, so each call copies `size` and the mutex without the lock (C115_violated, for every pool size). C115_exact and C115_size_exact give the exact conditions; C115_warm_partial and C115_full_partial are the cases without race; C115_pool_unharmed shows the pool still behaves as in C53-C56."
  },
  {
   "property": "C116",
   "status": "proved",
   "theorems": [
    "Verif.Lzf.C116_runs"
   ],
   "note": "Proved for every byte, every length from 20 up to 2^32 - 1 and every initial table."
  },
  {
   "property": "C117",
   "status": "proved",
   "theorems": [
    "Verif.Repl.Race.C117_race_free",
    "Verif.Repl.Race.C117_all_runs"
   ],
   "note": "Holds without restriction; an example shows that starting Ack before Load would be a race in the same sense. C117_all_runs: the runs meant are exactly those of the machine of C76-C89."
  },
  {
   "property": "C118",
   "status": "partial",
   "theorems": [
    "Verif.Repl.Files.C118_polite_partial",
    "Verif.Repl.Files.C118_other_files_partial",
    "Verif.Repl.Files.C118_violated_any",
    "Verif.Repl.Files.C118_violated_zeros",
    "Verif.Repl.Files.C118_own_file_step",
    "Verif.Repl.Files.C118_own_file",
    "Verif.Repl.Files.C118_violated",
    "Verif.Repl.Files.C118_leaves",
    "Verif.Repl.Files.C118_exact"
   ],
   "note": "False for calls that share a file, which is the default (C118_violated, C118_violated_any for any two masters). Proved when nobody touches a file another call is busy with (C118_polite_partial) and for different files (C118_other_files_partial). C118_violated_zeros: the file can also be one that no master sent. C118_own_file: no other file is touched. With different files each call leaves in its file exactly what it was sent, also when it fails (C118_leaves). C118_exact: a call comes to the same in every company if and only if it fails before it reads its file or no other call opens that file; of calls that alone come to what loading an empty file gives this is not claimed."
  },
  {
   "property": "C119",
   "status": "partial",
   "theorems": [
    "Verif.Repl.C119_ends_partial",
    "Verif.Repl.C119_exact",
    "Verif.Repl.C119_violated"
   ],
   "note": "False: the handler was started before the snapshot is read and is not stopped when reading fails, so messages already read are still handled; with the cache New makes this ends the process after New returned (C119_violated), exactly when C119_exact says. Proved for every run: nothing the master sends later has an effect, and after a bounded number of steps nothing happens any more (C119_ends_partial)."
  },
  {
   "property": "C120",
   "status": "partial",
   "theorems": [
    "Verif.Client.C120_violated",
    "Verif.Client.C120_exact",
    "Verif.Client.C120_status_partial",
    "Verif.Client.C120_violated_same",
    "Verif.Client.C120_violated_float"
   ],
   "note": "False for all methods that do not expect +OK (C120_violated). C120_exact: such a reply is reported if and only if the code expects +OK and the reply is something else. C120_violated_same: otherwise the result is that of a proper reply (0, a text, an empty list)."
  },
  {
   "property": "C121",
   "status": "partial",
   "theorems": [
    "Verif.Repl.C121_exact",
    "Verif.Repl.C121_survives_partial",
    "Verif.Repl.C121_bytes_exact",
    "Verif.Repl.C121_violated",
    "Verif.Repl.C121_violated_commands",
    "Verif.Repl.C121_violated_list"
   ],
   "note": "False: a bulk header with a length below -1 makes Recv panic in the receiving goroutine (C121_violated: any such header behind an empty snapshot, any option, database and cache); a SET without a value and a command for a list make the handler panic (C121_violated_commands), so any list in the snapshot does (C121_violated_list), and with the cache New makes any SET. C121_exact: these are all the ways, for all messages, all bytes behind the snapshot and all schedules; C121_bytes_exact: the same from the bytes of the master through New, for the snapshots Load supports. C121_survives_partial: without them the process survives whatever comes. Panics of New itself in the goroutine of its caller: C139."
  },
  {
   "property": "C122",
   "status": "partial",
   "theorems": [
    "Verif.Repl.Again.C122_kept",
    "Verif.Repl.Again.C122_exact",
    "Verif.Repl.Again.C122_not_saved_partial",
    "Verif.Repl.Again.C122_violated"
   ],
   "note": "C122_exact says after which calls a well master suffices; C122_violated holds for every limit. Trusted: Go closes an unreferenced connection or file when it collects garbage, and the handler's copy of the replication refers to the connection for as long as the handler runs."
  },
  {
   "property": "C123",
   "status": "partial",
   "theorems": [
    "Verif.Suite.C123_conditions",
    "Verif.Suite.C123_steady",
    "Verif.Suite.C123_violated_hDel",
    "Verif.Suite.C123_set",
    "Verif.Suite.C123_setNX",
    "Verif.Suite.C123_hExists_exact",
    "Verif.Suite.C123_hGet",
    "Verif.Suite.C123_setEX_exact",
    "Verif.Suite.C123_pSetEX_exact",
    "Verif.Suite.C123_getRange",
    "Verif.Suite.C123_decrBy",
    "Verif.Suite.C123_violated_twice",
    "Verif.Suite.C123_mSet",
    "Verif.Suite.C123_mSetNX",
    "Verif.Suite.C123_suite_exact",
    "Verif.Suite.C123_first_round",
    "Verif.Suite.C123_violated_second_round",
    "Verif.Suite.C123_violated_stale"
   ],
   "note": "C123_suite_exact gives the verdict of every test for the order in which go test runs them and every state in which a to d have no deadline and test1 is absent; C123_steady and the theorems for single tests hold from any state. Not modelled: the benchmarks, go test -shuffle with its own orders of tests (each test is covered singly), and the tests of the packages redis, lzf, zipmap and xxcache, which check nothing or need a Redis server."
  },
  {
   "property": "C124",
   "status": "partial",
   "theorems": [
    "Verif.Rdb.C124_get_exact",
    "Verif.Rdb.C124_len_exact",
    "Verif.Rdb.C124_violated_blobLen",
    "Verif.Rdb.C124_iterate_exact",
    "Verif.Rdb.C124_violated_del"
   ],
   "note": "Set calls that panic are outside the statements. C124_iterate_exact counts the texts an iteration yields. C124_violated_del is about the first key put in, shorter than 2^32 bytes."
  },
  {
   "property": "C125",
   "status": "partial",
   "theorems": [
    "Verif.Rdb.C125_exact",
    "Verif.Rdb.C125_format_partial",
    "Verif.Rdb.C125_violated"
   ],
   "note": "C125_format_partial compares with the entry format of Redis; C125_exact: where Set does not panic, a nonempty map becomes longer by nothing if Lookup finds the key and by one less than Len says otherwise (C125_violated), so never by what Len says. Lengths are natural numbers: overflow of Go's int is not modelled."
  },
  {
   "property": "C126",
   "status": "proved",
   "theorems": [
    "Verif.Rdb.C126_length",
    "Verif.Rdb.C126_loaded",
    "Verif.Rdb.C126_panics_exact"
   ],
   "note": "The offset and total size in the header are arbitrary, as are the elements. C126_loaded has the hypotheses of C71's correct region (Aligned elements)."
  },
  {
   "property": "C127",
   "status": "partial",
   "theorems": [
    "Verif.Client.Many.C127_violated_ignored",
    "Verif.Client.Many.C127_ignored_exact",
    "Verif.Client.Many.C127_violated_conn",
    "Verif.Client.Many.C127_violated_recv",
    "Verif.Client.Many.C127_violated_retry",
    "Verif.Client.Many.C127_violated_waits"
   ],
   "note": "C127_ignored_exact says which options a client depends on at all. C127_violated_waits is about the machine of C106; login and select while a connection is opened are answered there, and a call whose dial fails ends without a reply event (it is logged as noConn). C127_violated_recv says that the result of Recv depends on bytes still to come, whatever the timeout. C127_violated_retry rests on C92_violated (one goroutine, a pool that holds only closed connections)."
  },
  {
   "property": "C128",
   "status": "partial",
   "theorems": [
    "Verif.Entry.C128_violated",
    "Verif.Entry.C128_safe_partial",
    "Verif.Entry.C128_no_copies_partial",
    "Verif.Entry.C128_exact"
   ],
   "note": "C128_safe_partial: missing are programs that append at the tail of an entry that was copied or is a copy; there the result can depend on the capacities append chooses. C128_exact: a program is right whatever the capacities just if it is right when every new array has room for all its calls, which one run decides. Nothing in the repository calls these methods."
  },
  {
   "property": "C129",
   "status": "partial",
   "theorems": [
    "Verif.Rdb.C129_record_exact",
    "Verif.Rdb.C129_file_exact",
    "Verif.Rdb.C129_violated",
    "Verif.Rdb.C129_empty_partial"
   ],
   "note": "The format of the records is that of Redis 5 (opcode 2 and the number before the values). \"Supported\" is Item.Supported as in C65; ids and the number may have any of the four length encodings."
  },
  {
   "property": "C130",
   "status": "partial",
   "theorems": [
    "Verif.Suite.C130_violated",
    "Verif.Suite.C130_get_failed_exact",
    "Verif.Suite.C130_get_usable_exact",
    "Verif.Suite.C130_new_partial",
    "Verif.Suite.C130_lzf_partial",
    "Verif.Suite.C130_zipmap_partial",
    "Verif.Suite.C130_remote_partial"
   ],
   "note": "Rests on C78_violated (the sequential part of New) and C61_compressed_partial. A panic of the goroutine that handles replication can end the test run earlier; that is not in this model, and it cannot make a test pass. C130_get_usable_exact is about a cache New does not make. C130_remote_partial: a server that stays silent is left out (the call waits for ever, C127), and answers the reader cannot join (C91_exact)."
  },
  {
   "property": "C131",
   "status": "proved",
   "theorems": [
    "Verif.Resp.C131_sent",
    "Verif.Resp.C131_received",
    "Verif.Resp.C131_unknown"
   ],
   "note": ""
  },
  {
   "property": "C132",
   "status": "partial",
   "theorems": [
    "Verif.Resp.C132_same",
    "Verif.Resp.C132_exact",
    "Verif.Resp.C132_violated",
    "Verif.Resp.C132_panic_exact",
    "Verif.Resp.C132_length"
   ],
   "note": "C132_exact is stated for payloads announced with their length. Nothing in the repository calls readBulkString or discardEof. C132_panic_exact: it panics just for lengths that cannot be allocated."
  },
  {
   "property": "C133",
   "status": "partial",
   "theorems": [
    "Verif.Pool.C133_violated",
    "Verif.Pool.C133_violated_stuck",
    "Verif.Pool.C133_exact",
    "Verif.Pool.C133_waiting_partial",
    "Verif.Pool.C133_returns_exact"
   ],
   "note": "The dial is one step that comes back with any result; dial, open handlers and (*Conn).ExecCommand never look at the context. *Redis always passes context.Background, so this concerns direct users of Pool. C133_waiting_partial: missing are callers that wait for the mutex, and calls that take a connection although their context is done."
  },
  {
   "property": "C134",
   "status": "partial",
   "theorems": [
    "Verif.Repl.C134_exact",
    "Verif.Repl.C134_violated_acks",
    "Verif.Repl.C134_violated"
   ],
   "note": "C134_exact is about the machine of C76 with a Stop step; since Stop changes nothing the two machines have the same runs. C134_violated and C134_violated_acks are runs in which a command is applied, and an acknowledgement sent, after Stop."
  },
  {
   "property": "C135",
   "status": "partial",
   "theorems": [
    "Verif.Repl.C135_taken",
    "Verif.Repl.C135_violated_any",
    "Verif.Repl.C135_loud_partial",
    "Verif.Repl.C135_exact",
    "Verif.Repl.C135_violated"
   ],
   "note": "C135_loud_partial: missing are levels below warn. The texts are not modelled; that an error is logged means that logrus.Warnln is called with a level in force at which it writes. Errors raised while New loads and never taken are covered by C88."
  },
  {
   "property": "C136",
   "status": "partial",
   "theorems": [
    "Verif.C136_exact",
    "Verif.C136_violated",
    "Verif.C136_before_first_partial"
   ],
   "note": "Ticks are assumed to come every two seconds with a bounded delay (Ticking). That a tick empties the cache is C27. C136_before_first_partial: before the first tick a key is kept; missing is everything after it. Nothing in the repository calls Cron."
  },
  {
   "property": "C137",
   "status": "partial",
   "theorems": [
    "Verif.Pool.C137_in_order",
    "Verif.Pool.C137_exact",
    "Verif.Pool.C137_client_partial",
    "Verif.Pool.C137_violated"
   ],
   "note": "Adding a handler is one step: the data race between AddConnOpenHandler and a dial is not modelled. C137_client_partial: missing are handlers added after the first call. Which commands the handlers send is in C93."
  },
  {
   "property": "C138",
   "status": "proved",
   "theorems": [
    "Verif.Repl.C138_ops",
    "Verif.Repl.C138_defaults",
    "Verif.Repl.C138_same_master"
   ],
   "note": "The model with the record of requests is Repl.new without it (newT_new). What the goroutines New starts send later (Ack) is C109."
  },
  {
   "property": "C139",
   "status": "partial",
   "theorems": [
    "Verif.Rdb.C139_exact",
    "Verif.Rdb.C139_violated",
    "Verif.Rdb.C139_boundary_partial",
    "Verif.Rdb.C139_supported_partial",
    "Verif.Rdb.C139_string_exact",
    "Verif.Rdb.C139_violated_key",
    "Verif.Rdb.C139_violated_value",
    "Verif.Repl.C139_new_exact",
    "Verif.Repl.C139_violated_ping",
    "Verif.Repl.C139_violated_new",
    "Verif.Repl.C139_new_partial"
   ],
   "note": "False: a two-byte length cut off, a 32-bit number cut off (log.Fatal) and a compressed string with a length of zero end the process behind any supported records (C139_violated, through New C139_violated_new), and so does a bulk header below -1 in answer to the PING (C139_violated_ping). Even undamaged snapshots do: C139_string_exact says a string that is all there ends the process if and only if it is compressed and one of its lengths takes four or eight bytes, which Redis writes from 16384 bytes on (C139_violated_key, C139_violated_value). C139_exact and C139_new_exact: exactly which files and answers do, for all of them, by kind of record (StrFault, ObjFault, RecFault); for integer sets in terms of their bytes (intset_fault), for ziplists and zipmaps in terms of the parsers. C139_boundary_partial, C139_supported_partial, C139_new_partial: files with the end marker behind whole records, and files that break off between records, do not."
  }
 ]
}