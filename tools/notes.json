{
 "C01": {
  "note": "False as stated (Set keeps a stale deadline, numeric text is rewritten): C01_violated*. Proved for every key whose deadline has not passed and every value stored verbatim."
 },
 "C02": {
  "note": "False on negative zero only: -0.0 shows as -0, which stored again shows as 0 (C02_violated). First half in full (C02_get_set_canon); second half for every other text (C02_exact)."
 },
 "C03": {
  "note": "False because a later plain write keeps an earlier deadline: C03_violated. C03_exact: it holds exactly when the deadline in force has not passed."
 },
 "C05": {
  "note": "False for TTLs whose nanosecond product overflows: C05_violated. Proved for every TTL that fits."
 },
 "C06": {
  "note": "False for huge TTLs (overflow): C06_violated."
 },
 "C07": {
  "note": "False: Set does not clear the deadline (C07_violated, C07_set_keeps_deadline). Proved for keys without deadline."
 },
 "C08": {
  "note": "False: SetNX treats an expired key as present (C08_violated). Proved for non-stale keys."
 },
 "C09": {
  "note": "False for hash keys: the value is overwritten though an error is returned (C09_violated). Proved otherwise."
 },
 "C10": {
  "note": "False: lazy deletion by a read is visible to SetNX/IncrBy (C10_violated). Proved for live keys and for later read calls."
 },
 "C12": {
  "note": "False for numeric text (canonicalised): C12_violated. Proved up to canon, and exactly for verbatim results."
 },
 "C13": {
  "note": "False for numeric text (C13_violated) and, with a panic, for positions past the largest possible slice (C13_violated_huge). Proved up to canon for all other positions."
 },
 "C15": {
  "note": "False: a sum that does not fit 64 bits is stored wrapped (C15_violated). Proved for every sum that fits, on stored integers of every width; C15_exact gives the wrapped answer. C15_width_exact: what is answered and stored for every stored type, also when the sum does not fit."
 },
 "C18": {
  "note": "False: these calls do not look at the deadline and go on with the stale value (C18_violated). Proved when a read call came first; C18_exact gives what they answer."
 },
 "C19": {
  "note": "False: a counter made by Incr/IncrBy shows the same text but is refused (C19_violated). Proved for values that came from Set or IncrByFloat."
 },
 "C21": {
  "note": "False for MSetNX's all-or-nothing rule: C21_violated. Proved what the loop does for all maps and orders."
 },
 "C24": {
  "note": "False: Exists does not look at deadlines (C24_violated). C24_exact_iff: right exactly when no named position holds a stale key."
 },
 "C26": {
  "note": "False for hashes: C26_violated. C26_exact: right exactly when the key does not hold a readable hash."
 },
 "C27": {
  "note": "False: one tick wipes every key (C27_violated). C27_exact: it holds exactly for keys that are absent anyway."
 },
 "C28": {
  "note": "False for GetSet, which overwrites the hash it rejects (C28_violated). C28_exact lists the exceptions."
 },
 "C29": {
  "note": "False: HKeys/HVals/HGetAll on an absent key, the list calls and a SetRange past the largest possible slice panic (C29_violated). C29_exact: these are all the calls that panic. The list calls all panic (C29_violated_lists)."
 },
 "C30": {
  "note": "HSet and HMSet in full; HSetNX stores raw text (C30_violated_hSetNX)."
 },
 "C31": {
  "note": "False: HExists lowers HLen (C31_violated). Proved for every history without HExists."
 },
 "C34": {
  "note": "False: the increment is stored instead of the sum (C34_violated). The answer is proved right, on stored integers of every width. C34_width_exact: the answer for every stored type."
 },
 "C35": {
  "note": "False: the field holds the increment afterwards, and a field that is a fraction is refused (C35_violated). The answer on integer fields is proved to be the float64 sum (C35_exact, C35_exact_error). C35_width_exact: the answer for every stored type."
 },
 "C37": {
  "note": "HKeys proved in full. HVals drops numbers and HGetAll is always empty (C37_violated)."
 },
 "C40": {
  "note": "All write-locked calls, all schedules. With the read-locked calls too when no key has a deadline, or when readers do not overlap."
 },
 "C42": {
  "note": "False when two readers overlap (C42_violated). Proved for schedules without overlapping readers. C42_overlap_partial: also with any overlap in which no other goroutine is inside a call that looks at the same key, for all calls (locked or not) that do not write it; C42_one_reader_partial: in every schedule if only one goroutine looks at the key. C42_violated_any: for every expired key, any two goroutines that look at it can give the expired value. C42_exact: of programs that do not write the expired key and look at it only with Get, the expired value can be given if and only if two different goroutines call Get for it."
 },
 "C43": {
  "note": "False on an absent key (C43_violated) and for HLen (C43_violated_length). Proved for existing hashes and every schedule. C43_exact: two HSets of different fields both last in every schedule if and only if the key exists when they start; C43_violated_any: for every absent key, all fields and values. C43_many_exact, C43_many_violated: the same for any number of goroutines with any number of HSets, two of which begin with different fields."
 },
 "C44": {
  "note": "False (C44_violated). Proved slot by slot. C44_violated_any: whatever the MSet and wherever it is cut, any call of another goroutine may be answered from the half written state; C44_violated_torn: for all keys and values. C44_exact: of one MSet and one MGet on keys without deadlines, exactly which answers the MGet can give (each slot from a growing first part of the pairs); C44_torn_exact: if the pairs have different keys, an answer that is neither the one before nor the one after is possible if and only if two slots of the MGet are of keys whose value changes. C44_writer_exact: the same for one goroutine with any number of Set and MSet calls; C44_writers_exact: for any number of goroutines making any number of Set and MSet calls beside one MGet: the answers are those read from growing first parts of some order of the goroutines' writes, pair by pair. Keys with deadlines, and other writing calls beside the MGet, are not characterised."
 },
 "C46": {
  "note": "False for bulk strings: one Read may return fewer bytes than asked (C46_violated, C46_violated_large). Proved for messages without bulk strings, for cuts between tokens, and that a successful decode never differs in type of outcome as stated in C46_any_cut_partial. Exactly: the part one Read delivers is kept and the rest is zeros (C46_result), so a bulk reply is decoded to itself iff that rest is zeros (C46_exact), and the next reply is read from the right place iff that rest has no newline and fits the buffer (C46_exact_place). C46_message_exact: both together for any message whose lines fit the buffer, arrays in arrays included."
 },
 "C49": {
  "note": "False: a negative length panics (C49_violated). Proved for every stream whose announced lengths are not negative/huge. Exactly for a bulk header in front of anything: a panic iff the length is below -1 or beyond the address space (C49_exact)."
 },
 "C51": {
  "note": "False for some replies (C51_violated). Proved for failures, and for success replies per result kind. C51_exact: exactly which documented success replies reach the caller."
 },
 "C52": {
  "note": "False for the methods that send another command name (C52_violated). Proved for all the others; C52_distinct. C52_exact: the documented command arrives exactly for the methods other than SetEX, PSetEX, IncrBy."
 },
 "C54": {
  "note": "Put never blocks is proved in full. Conservation is false after a failed open handler and with Close (C54_violated); proved otherwise. C54_exact: conserved if and only if no open handler failed and Close took nothing; C54_lost_once: at most one connection is ever dropped."
 },
 "C55": {
  "note": "False: a failed dial leaves the mutex locked for good (C55_violated, C55_violated_forever). Proved: without failure a caller can always still be served. C55_exact says in exactly which reachable states an idle caller can still obtain a connection."
 },
 "C56": {
  "note": "False: Close returns only if closing a connection fails (C56_violated). Proved: it closes every idle connection. C56_exact: from any state, Close can still return (with such an error) if and only if a connection is idle, in use or on its way into the pool, or one may still be dialled and a caller outside Close is there to do it."
 },
 "C83": {
  "note": "False: the dialled connection can be taken by a third party (C83_violated). Proved: a waiting caller implies that somebody else has a connection in hand. C83_exact: without Close it can happen if and only if capacity and number of callers are at least two; C83_violated_closed: with Close, a lone caller can wait for ever though nothing is open."
 },
 "C58": {
  "note": "False for inputs of one byte: the byte behind it is read (C58_violated). Proved for every other input. C58_exact: exactly the one-byte inputs fault."
 },
 "C59": {
  "note": "For inputs of at least one byte; C59_empty shows that the empty input is read out of bounds."
 },
 "C60": {
  "note": "With the converse: nothing else is accepted."
 },
 "C61": {
  "note": "False for text that does not compress and for the empty string (C61_violated, C61_violated_empty). C61_decompress_exact gives the result of DeCompress for every text: an LZF stream that fits gives its output filled up with zero bytes, anything else comes back. C61_exact: the round trip of a non-empty text works if and only if it compressed, or is no stream that fits, or is its own output. Proved for every text that compressed, and for incompressible text that is not itself a stream."
 },
 "C84": {
  "note": "False in both parts. The documented 104% fails exactly at the lengths 2-25, 33-50, 65-75 and 97-100 (C84_exact, C84_exact_lengths); at every length there is text that takes all ceil(n/32) extra bytes (C84_tight). With room for just those bytes the compressor can fail (C84_violated_room). The room exactly (C84_room_exact): it succeeds with all text of length n just when it has n + 2 bytes for n below 5 and n + 3 + (n+28)/32 bytes from 5 on, whatever the table holds."
 },
 "C62": {
  "note": "False for the four and eight byte forms, which are always read as 0 (C62_violated, C62_violated_always). Proved for the one and two byte forms, in any blocks. C62_exact: a length is read right if and only if it takes one or two bytes or is zero."
 },
 "C63": {
  "note": "False for negative 16/32-bit integers and for lengths of four or eight bytes (C63_violated*); a compressed string with such a length panics (C63_violated_lzf). Proved for all other encodings, including LZF. C63_exact: an encoded string inside its block is read right if and only if it is one of those, or empty."
 },
 "C64": {
  "note": "False for plain strings: one Read is used, the missing part is zero bytes (C64_violated, C64_violated_file). Proved for integer and compressed strings on arbitrary bytes, and for plain strings within a block. C64_result: the result in every case. C64_exact: right if and only if the part outside the block in which the string begins is zero bytes; C64_exact_place: the reader goes on at the right place if and only if there is no such part."
 },
 "C65": {
  "note": "False: the empty key is rejected, and see C62-C64, C68, C70-C72. C65_exact says for which keys and values it holds, in files whose other records are supported and in which no string crosses the end of a block: exactly when every entry is one of a list (strings read right, sets of them, packed lists of kept elements, and so on); one entry outside it spoils the load. For sorted sets packed in a list the condition is stated with the model's own ziplistLoad (C65_packed_zset_exact: without it, for elements that are read as they are); packed maps with unused bytes behind a later entry are left out. C65_replayed_partial runs the emitted commands in a reference server."
 },
 "C66": {
  "note": "False: seconds are multiplied in 32 bits, and an absolute time is sent as a duration (C66_violated*). Proved: one command, for the next key only, with the recorded time where it does not overflow. C66_any_time: what is sent for every time. C66_exact: a time in seconds is right if and only if it is before 2^32 milliseconds; C66_millis_partial: times in milliseconds are right for all 64 bits. C66_replayed_partial: what deadline each key of a supported file has at a server; C66_violated_relative: only keys without a deadline end up right, unless loaded at time 0."
 },
 "C67": {
  "note": "False: module and stream records end the load with success (C67_violated*). Proved: termination on every file; success only at an end marker or such a record, so never on a file without the bytes 255, 6, 7, 15; a supported file cut off anywhere is never accepted. C67_exact: on every file, a load succeeds just if it came to the end marker or to a record of a module or a stream, never both; so the claim fails on exactly the files whose whole records lead to such a record."
 },
 "C68": {
  "note": "False for plain lists (reversed), hashes (sent as zAdd) and sorted sets (score and member swapped). Proved for the other supported encodings with respect to a reference server. Exactly: a plain list is right if and only if it reads the same backwards (C68_exact_list), a plain hash never is (C68_violated_hash_any), a plain sorted set if and only if swapping members and scores gives the same set (C68_exact_zset)."
 },
 "C69": {
  "note": "False for infinities, NaN and binary scores (C69_violated*). Proved for text scores in any blocks. C69_exact: a score is read right if and only if it is written as text or is a binary positive zero."
 },
 "C70": {
  "note": "False for negative elements of 2 and 4 byte sets (sign lost). Proved for 8 byte sets and for non-negative elements. C70_exact: right if and only if the elements take 8 bytes or none is negative."
 },
 "C71": {
  "note": "False for elements longer than 63 bytes and for integers wider than 4 bits. Proved for short strings and immediate integers. C71_exact: the list comes out right if and only if all its elements are of that kind, but for texts that consist of their own length byte (Kept); C71_no_integers_partial: never with another integer, whatever its value. C71_violated_dropped: any 64 bit integer from -2^40 to -1 ends the list without notice; C71_violated_last: any from 0 to 2^40-1 at the end of the list makes the loader panic."
 },
 "C72": {
  "note": "False for two entries: the byte between entries is skipped (C72_violated*). Proved for at most one entry; C72_spaced_partial shows the layout the loader does read, for any number of entries. C72_exact: with no unused bytes behind the first entry, a map loads right if and only if it has at most one entry; C72_lucky: unused bytes can make two entries come out right."
 },
 "C73": {
  "note": "False: entries lack the free byte, so later lookups misread: keys are lost, found twice, found though never put in, or the lookup panics (C73_violated*). Proved for the first key; C73_one_exact: for a map with one entry, exactly when looking for another key panics; C73_spaced_partial shows the layout Lookup does read."
 },
 "C74": {
  "note": "False: short SET and every rPush panic, hmSet is silently dropped. Proved: SET has the effect of Set, unknown commands are reported and change nothing, the exact set of panicking messages. C74_exact: exactly what is accepted and what it does."
 },
 "C75": {
  "note": "False for non-canonical numbers. Proved for streams of any length up to the canonical text of numbers (exactly, for verbatim values). C75_exact: exactly the canonical texts are shown as the master has them."
 },
 "C76": {
  "note": "False: the receiver tags every message of the stream with database 0. Proved: in every schedule the cache is the result of the messages tagged with the configured database, in order. C76_exact: with database 0 everything in the stream is applied, with any other nothing (C76_violated_other)."
 },
 "C77": {
  "note": "False: the handler sends to the channel only it empties. Exactly (C77_exact): it can get stuck iff a second refused message is reached without a panic; or one refused message is reached and the snapshot loads with at most 10000 messages behind it; or, on database 0, the snapshot loads and nothing panics (the loss of the connection is enough). Proved: never stuck in any schedule while all commands are supported, nor before a second error arises, nor on another database with a snapshot without refused messages."
 },
 "C78": {
  "note": "False for every option and key: the cache of the client is the zero value, Get panics."
 },
 "C79": {
  "note": "False: the cache New makes is unusable, the first assignment crashes the process. Proved from bytes to Get for a usable cache, supported string snapshots and streams of assignments, in every schedule; and that catching up is always possible. C79_exact: whatever the master sends, a replica that has caught up shows exactly the last assignments among it. C79_all_types_partial: from the bytes to Get for supported snapshots with all types, deadlines and databases and any stream."
 },
 "C85": {
  "note": "Proved for all snapshots and all cuts of the byte stream."
 },
 "C86": {
  "note": "False: every message that answers SYNC is saved as the snapshot (C86_violated_any), and New succeeds exactly if its text loads (C86_new_exact). Proved for the ping, and for New on replies without the bytes 255, 6, 7, 15 (so nil, numbers, arrays, refusals in ASCII)."
 },
 "C87": {
  "note": "False: a line feed before the snapshot ends the attempt with an error; saved exactly if there is none (C87_exact)."
 },
 "C88": {
  "note": "False. Exactly (C88_exact): New can be kept from returning iff a message of the snapshot makes the handler panic (with the zero cache of New: any assignment, C88_violated_zero) or two messages are refused among those that more than ten thousand others follow. Proved: up to 10001 messages without a panic New can always still return."
 },
 "C89": {
  "note": "C89_violated: numbers in another spelling. Proved for a usable cache, supported snapshots and streams of assignments, up to the canonical text of numbers, at one moment (C89_prefix_partial) and at two (C89_never_back_partial). C89_monotone: for all streams, the cache at two moments is the result of two first parts of what was sent, the later no shorter. C89_exact: for all snapshots and all streams, without restriction: at two moments the assignments of two first parts, the later no shorter, and nothing else is visible. C89_no_invention: what Get shows was assigned."
 },
 "C90": {
  "note": "Exact for every call but the two float counters (their reference is simplified) and the list calls: Ref.Alike says of each call on a cache in agreement with the reference whether it answers as Redis and nothing safe shows a difference afterwards (C90_exact), and the same for whole histories (C90_run_exact). C90_violated gives a diverging history for each excluded situation."
 },
 "C91": {
  "note": "False: a value containing a newline, cut before it, supplies the answer to the next call (C91_violated, C91_forged_violated), and all later calls on that connection are answered one late (C91_late_violated). C91_exact: a call on a connection in step gets its reply and leaves the connection in step if and only if of each payload in the reply the part that has not arrived when it is read is zero and fits the buffer (Carried); C91_bulk_exact separates the two for a single payload; C91_run_exact: the same for whole histories on any number of connections. Replies cut between tokens, and replies without payloads of more than one byte cut anywhere, are such (carried_token, carried_short)."
 },
 "C92": {
  "note": "False: dead connections return to the pool and every later call fails for ever (C92_violated); after a failed first dial every later call hangs (C92_unreachable_violated). Proved while no connection is lost. C92_sessions gives the answers of every session; C92_exact: all calls are answered if and only if the first one finds a server that can be reached and accepts the client and no call follows a loss."
 },
 "C93": {
  "note": "Proved for all sessions without Select (C93_configured) and exactly at the dial (C93_dial). Select moves only the connection it happens to use (C93_select_violated). C93_exact: on a pool of n open connections call j uses connection j mod n, whose database is moved just by the Selects before it that used the same one; C93_one_connection_exact: all calls follow a Select if and only if the pool holds one connection. Calls are one after another; of goroutines at the same time only C93_configured speaks."
 },
 "C94": {
  "note": "Proved for Set, Get, GetSet, StrLen, Append, SetRange, GetRange, Incr, Decr, DecrBy, MSet, MSetNX, MGet with at least one key. False of SetEX, PSetEX, IncrBy, SetNX (C94_violated). C94_seen_partial says what the caller sees and what the server keeps for every method and every session on a connection that is not lost; C94_exact: a call shows its documented answer if and only if it is one of these methods, or IncrByFloat refused or arriving at 0; C94_violated_any: the failures for all arguments and states."
 },
 "C95": {
  "note": "Proved for methods of C94 and every history whose calls are alike in the sense of C90 (C95_alike_partial). Exact: any call that is not alike shows in the answers as soon as the keys are read again (C95_exact, for replies the network carries). False otherwise, for instance for numbers in another spelling (C95_violated)."
 },
 "C98": {
  "note": "Clock readings after the year 1, where the zero time of Go is."
 },
 "C101": {
  "note": "Fairness: the scheduler does not idle forever while some goroutine can run. Finitely many goroutines. Readers are kept out whenever a writer waits, the strictest reading of RWMutex."
 },
 "C102": {
  "note": "Conflict is defined by the keys a call names and may change; a read-locked call may change a key that can have a deadline (it deletes it when stale). An MGet of several keys needs keys without deadlines (see C103). C102_real_time: each call also takes effect between the clock readings at which it was made (took its lock) and returned, so both orders keep the real-time order."
 },
 "C103": {
  "note": "False when a deadline passes between two reads, even with one goroutine. For a goroutine that is alone C103_exact says for which keys it holds: deadlines fall along the list. Beside a goroutine that makes Set and MSet calls of different keys, for keys without deadlines, C103_writer_exact: every MGet shows one moment if and only if of any two slots whose keys change the later one is written first. C103_writers_exact: beside any number of such goroutines, with a moment for when each goroutine has made some first part of its writes: if and only if the same holds of each goroutine. With any other goroutines: C103_snapshot_partial, keys without deadlines. C103_real_time_partial puts the moment between the call and the return of the MGet and names the calls before it."
 },
 "C104": {
  "note": "The goroutines on the keys U obey C102 among themselves; the others are not restricted except that they do not name keys of U (so Flush and the sweep are not among them)."
 },
 "C105": {
  "note": "Runs start from an empty cache. A key for which Append, SetRange or a counter call is made is excluded for the string answers; hash counters store the increment, so their fields are covered."
 },
 "C106": {
  "note": "Under the network assumption of C91 (replies arrive in pieces the reader can join); C106_violated shows the confusion otherwise, and C106_exact that the assumption, for connections that are up, is just what is needed: whatever the network may do, all calls of all runs read their own replies and leave connections in step if and only if every reply that can come is one the reader can join. After a failed dial the pool's mutex stays locked (C55), so progress is claimed only without one."
 },
 "C108": {
  "note": "False of SyncWithRedis: the error of the last write (up to 4096 bytes) is dropped (C108_violated, C108_exact_partial). Proved of New for supported snapshots: Load finds out (C108_new_partial)."
 },
 "C109": {
  "note": "Partial: identity and position of the snapshot are proved to be read from any place in it, and every acknowledgement in every schedule is proved to carry the snapshot's position. The commands received since are not counted: refuted by C109_violated. C109_exact: an acknowledgement is right exactly if nothing was received since the snapshot."
 },
 "C110": {
  "note": "Partial: proved at every moment at which the replica has caught up, for all schedules (C110_converges_partial, C110_own_write_partial), that it shows a first part of the master's history at every moment, also when the connection broke with messages on their way (C110_prefix_partial), and that it can catch up while the connection stands (C110_can_catch_up_partial). Immediately after Set it is false (C110_violated). The cache is assumed usable (C78), strings without deadlines in database 0, numbers up to spelling. For all methods, all ways in which the master passes on and all networks: C110_exact says what Get shows at two moments and when caught up (the assignments that arrive, nothing else); C110_no_invention; what other methods write is never shown (C110_violated_others, with the run C110_violated_append)."
 },
 "C111": {
  "note": "`Client.Get` only looks into the local cache (`C111_violated`). Proved for every run: once the replica has caught up, `Get` misses exactly the keys the master does not hold. C111_exact: for all methods, a caught-up Get misses exactly the keys no assignment arrived for."
 },
 "C112": {
  "note": "False: nothing connects again. Proved for all runs and all continuations: after the loss `Get` keeps showing a first part of what was set before (`C112_lost_for_good`) and stops changing (`C112_settled`). C112_exact: the same for all methods and whatever the master passes on."
 },
 "C113": {
  "note": "Both directions: every literal of the grammar is read as the nearest float64 (or refused beyond the largest), and everything read as a number is in the grammar. Literals with an exponent of 100000 or more and over 1000 mantissa digits are outside (the library cuts the exponent off)."
 },
 "C114": {
  "note": "False of the code: hash calls take no lock and change the plain int `length`, Flush assigns the map fields under a lock the hash calls do not take (C114_violated, C114_flush_violated). Proved where it holds: C114_no_race_partial, and C114_pair_exact gives the exact set of racing pairs. For any number of goroutines with any lists of calls: C114_lists_exact (no size of a hash shared: a race if and only if one calls Flush and another a call without lock, from every state), C114_flush_lists_violated, C114_first_violated (the first calls of two goroutines clash). C114_hash_lists_exact: for lists of HSet, HMSet, HExists, HLen and the reading calls, on hashes that exist without deadline, a race if and only if two goroutines use the size of one hash and one changes it. C114_new_lists_exact: the same where hashes may be absent at first, as in a new cache: also the hash must exist or some goroutine call HSet or HMSet of it. C114_setnx_lists_exact: lists as in C114_hash_lists_exact with HSetNX as well: the two uses must not be HSetNX of a field that is there at first, nor both HSetNX of the same field. Later calls by HIncrBy, HIncrByFloat and HDel, which may or may not come to the size, are not characterised in lists."
 },
 "C115": {
  "note": "False as stated: `Put`, `create` and `Close` have value receivers, so each call copies `size` and the mutex without the lock (C115_violated, for every pool size). C115_exact and C115_size_exact give the exact conditions; C115_warm_partial and C115_full_partial are the cases without race; C115_pool_unharmed shows the pool still behaves as in C53-C56."
 },
 "C116": {
  "note": "Proved for every byte, every length from 20 up to 2^32 - 1 and every initial table."
 },
 "C117": {
  "note": "Holds without restriction; an example shows that starting Ack before Load would be a race in the same sense. C117_all_runs: the runs meant are exactly those of the machine of C76-C89."
 },
 "C118": {
  "note": "False for calls that share a file, which is the default (C118_violated, C118_violated_any for any two masters). Proved when nobody touches a file another call is busy with (C118_polite_partial) and for different files (C118_other_files_partial). C118_violated_zeros: the file can also be one that no master sent. C118_own_file: no other file is touched. With different files each call leaves in its file exactly what it was sent, also when it fails (C118_leaves). C118_exact: a call comes to the same in every company if and only if it fails before it reads its file or no other call opens that file; of calls that alone come to what loading an empty file gives this is not claimed."
 },
 "C82": {
  "note": "Pairs with NaN or an infinity: C82_nan_iff, C82_infinite."
 },
 "C119": {
  "note": "False: the handler was started before the snapshot is read and is not stopped when reading fails, so messages already read are still handled; with the cache New makes this ends the process after New returned (C119_violated), exactly when C119_exact says. Proved for every run: nothing the master sends later has an effect, and after a bounded number of steps nothing happens any more (C119_ends_partial)."
 },
 "C120": {
  "note": "False for all methods that do not expect +OK (C120_violated). C120_exact: such a reply is reported if and only if the code expects +OK and the reply is something else. C120_violated_same: otherwise the result is that of a proper reply (0, a text, an empty list)."
 },
 "C121": {
  "note": "False: a bulk header with a length below -1 makes Recv panic in the receiving goroutine (C121_violated: any such header behind an empty snapshot, any option, database and cache); a SET without a value and a command for a list make the handler panic (C121_violated_commands), so any list in the snapshot does (C121_violated_list), and with the cache New makes any SET. C121_exact: these are all the ways, for all messages, all bytes behind the snapshot and all schedules; C121_bytes_exact: the same from the bytes of the master through New, for the snapshots Load supports. C121_survives_partial: without them the process survives whatever comes. Panics of New itself in the goroutine of its caller: C139."
 },
 "C122": {
  "note": "C122_exact says after which calls a well master suffices; C122_violated holds for every limit. Trusted: Go closes an unreferenced connection or file when it collects garbage, and the handler's copy of the replication refers to the connection for as long as the handler runs."
 },
 "C123": {
  "note": "C123_suite_exact gives the verdict of every test for the order in which go test runs them and every state in which a to d have no deadline and test1 is absent; C123_steady and the theorems for single tests hold from any state. Not modelled: the benchmarks, go test -shuffle with its own orders of tests (each test is covered singly), and the tests of the packages redis, lzf, zipmap and xxcache, which check nothing or need a Redis server."
 },
 "C124": {
  "note": "Set calls that panic are outside the statements. C124_iterate_exact counts the texts an iteration yields. C124_violated_del is about the first key put in, shorter than 2^32 bytes."
 },
 "C125": {
  "note": "C125_format_partial compares with the entry format of Redis; C125_exact: where Set does not panic, a nonempty map becomes longer by nothing if Lookup finds the key and by one less than Len says otherwise (C125_violated), so never by what Len says. Lengths are natural numbers: overflow of Go's int is not modelled."
 },
 "C126": {
  "note": "The offset and total size in the header are arbitrary, as are the elements. C126_loaded has the hypotheses of C71's correct region (Aligned elements)."
 },
 "C127": {
  "note": "C127_ignored_exact says which options a client depends on at all. C127_violated_waits is about the machine of C106; login and select while a connection is opened are answered there, and a call whose dial fails ends without a reply event (it is logged as noConn). C127_violated_recv says that the result of Recv depends on bytes still to come, whatever the timeout. C127_violated_retry rests on C92_violated (one goroutine, a pool that holds only closed connections)."
 },
 "C128": {
  "note": "C128_safe_partial: missing are programs that append at the tail of an entry that was copied or is a copy; there the result can depend on the capacities append chooses. C128_exact: a program is right whatever the capacities just if it is right when every new array has room for all its calls, which one run decides. Nothing in the repository calls these methods."
 },
 "C129": {
  "note": "The format of the records is that of Redis 5 (opcode 2 and the number before the values). \"Supported\" is Item.Supported as in C65; ids and the number may have any of the four length encodings."
 },
 "C130": {
  "note": "Rests on C78_violated (the sequential part of New) and C61_compressed_partial. A panic of the goroutine that handles replication can end the test run earlier; that is not in this model, and it cannot make a test pass. C130_get_usable_exact is about a cache New does not make. C130_remote_partial: a server that stays silent is left out (the call waits for ever, C127), and answers the reader cannot join (C91_exact)."
 },
 "C132": {
  "note": "C132_exact is stated for payloads announced with their length. Nothing in the repository calls readBulkString or discardEof. C132_panic_exact: it panics just for lengths that cannot be allocated."
 },
 "C133": {
  "note": "The dial is one step that comes back with any result; dial, open handlers and (*Conn).ExecCommand never look at the context. *Redis always passes context.Background, so this concerns direct users of Pool. C133_waiting_partial: missing are callers that wait for the mutex, and calls that take a connection although their context is done."
 },
 "C134": {
  "note": "C134_exact is about the machine of C76 with a Stop step; since Stop changes nothing the two machines have the same runs. C134_violated and C134_violated_acks are runs in which a command is applied, and an acknowledgement sent, after Stop."
 },
 "C135": {
  "note": "C135_loud_partial: missing are levels below warn. The texts are not modelled; that an error is logged means that logrus.Warnln is called with a level in force at which it writes. Errors raised while New loads and never taken are covered by C88."
 },
 "C136": {
  "note": "Ticks are assumed to come every two seconds with a bounded delay (Ticking). That a tick empties the cache is C27. C136_before_first_partial: before the first tick a key is kept; missing is everything after it. Nothing in the repository calls Cron."
 },
 "C137": {
  "note": "Adding a handler is one step: the data race between AddConnOpenHandler and a dial is not modelled. C137_client_partial: missing are handlers added after the first call. Which commands the handlers send is in C93."
 },
 "C138": {
  "note": "The model with the record of requests is Repl.new without it (newT_new). What the goroutines New starts send later (Ack) is C109."
 },
 "C139": {
  "note": "False: a two-byte length cut off, a 32-bit number cut off (log.Fatal) and a compressed string with a length of zero end the process behind any supported records (C139_violated, through New C139_violated_new), and so does a bulk header below -1 in answer to the PING (C139_violated_ping). Even undamaged snapshots do: C139_string_exact says a string that is all there ends the process if and only if it is compressed and one of its lengths takes four or eight bytes, which Redis writes from 16384 bytes on (C139_violated_key, C139_violated_value). C139_exact and C139_new_exact: exactly which files and answers do, for all of them, by kind of record (StrFault, ObjFault, RecFault); for integer sets in terms of their bytes (intset_fault), for ziplists and zipmaps in terms of the parsers. C139_boundary_partial, C139_supported_partial, C139_new_partial: files with the end marker behind whole records, and files that break off between records, do not."
 }
}