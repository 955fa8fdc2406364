{"id": "C01", "title": "Get returns what Set stored", "statement": "After Set(k,v) returns, Get(k) returns exactly the bytes v, until another call writes k.", "quantifier": "all cache states, keys, byte strings v", "why_tests_cant": "The claim ranges over every value / key / state; a test fixes a handful of them. Numeric-looking values and left-over deadlines are the cases nobody enumerates.", "anchors": ["cache/cachestring.go:Set", "cache/cachestring.go:Get", "cache/cachestring.go:tryInt64", "cache/cachestring.go:fmtString"]}
{"id": "C02", "title": "Get after Set is a fixed canonical text", "statement": "For every v, Get after Set(k,v) returns the canonical text of v (decimal text of the number v denotes if v is a Go integer or float literal, otherwise v); storing that text again and reading it back gives the same text.", "quantifier": "all byte strings v", "why_tests_cant": "The claim ranges over every value / key / state; a test fixes a handful of them.", "anchors": ["cache/cachestring.go:tryInt64", "cache/cachestring.go:fmtString"]}
{"id": "C03", "title": "Last write wins over any history", "statement": "In any history, Get(k) returns the value given by the most recent write to k, whatever calls on other keys happen before, in between or after.", "quantifier": "all histories of API calls with non-decreasing clock readings", "why_tests_cant": "The claim ranges over every history of API calls; tests run a few short scripted ones.", "anchors": ["cache/cachestring.go:Set", "cache/cachestring.go:Get", "cache/cachestring.go:MSet", "cache/cachestring.go:GetSet"]}
{"id": "C04", "title": "Keys are isolated", "statement": "A call that names only other keys never changes what any later read of k observes (value, hash content, deadline).", "quantifier": "all single-key and multi-key calls, all states, all keys not named by the call", "why_tests_cant": "The claim ranges over every value / key / state; a test fixes a handful of them.", "anchors": ["cache/cachestring.go", "cache/cachehash.go", "cache/cachedb.go"]}
{"id": "C05", "title": "A TTL expires exactly at its deadline", "statement": "After SetEX(k,v,n)/PSetEX(k,v,n) with n>0 at time t, Get(k) returns v at every time up to t+n and reports nil at every later time, as long as nobody writes k.", "quantifier": "all states, keys, values, positive TTLs that fit in a duration, all read times", "why_tests_cant": "The claim ranges over every value / key / state; a test fixes a handful of them. The boundary instant and all later instants cannot be enumerated.", "anchors": ["cache/cachestring.go:SetEX", "cache/cachestring.go:PSetEX", "cache/cacheutil.go:expires", "cache/cacheutil.go:expired", "cache/cacheutil.go:get"]}
{"id": "C06", "title": "Non-positive and huge TTLs", "statement": "SetEX/PSetEX with a TTL that is not positive leaves the key without deadline; a larger requested TTL never yields an earlier deadline.", "quantifier": "all 64-bit TTL arguments", "why_tests_cant": "The claim ranges over every value / key / state; a test fixes a handful of them. The wrap-around region is outside what tests try.", "anchors": ["cache/cachestring.go:SetEX", "cache/cachestring.go:PSetEX", "cache/cacheutil.go:expires"]}
{"id": "C07", "title": "Set makes a key persistent", "statement": "Set(k,v) on a key that carried a deadline removes the deadline: the new value is readable at every later time.", "quantifier": "all states, keys, deadlines, later times", "why_tests_cant": "The claim ranges over every value / key / state; a test fixes a handful of them.", "anchors": ["cache/cachestring.go:Set", "cache/cachestring.go:GetSet", "cache/cachestring.go:MSet"]}
{"id": "C08", "title": "SetNX stores iff the key is absent", "statement": "SetNX(k,v) returns 1 and stores v if Get(k) would report nil at that moment, and otherwise returns 0 and changes nothing.", "quantifier": "all states, clock readings, keys, values", "why_tests_cant": "The claim ranges over every value / key / state; a test fixes a handful of them.", "anchors": ["cache/cachestring.go:SetNX"]}
{"id": "C09", "title": "GetSet swaps, and fails without effect", "statement": "GetSet(k,v) returns what Get(k) would have returned and leaves v stored; if it reports a wrong-type error the key is unchanged.", "quantifier": "all states, keys, values", "why_tests_cant": "The claim ranges over every value / key / state; a test fixes a handful of them.", "anchors": ["cache/cachestring.go:GetSet"]}
{"id": "C10", "title": "Reads are not observable", "statement": "Get, StrLen, GetRange, MGet, Exists, Type, HGet, HExists, HMGet, HLen, HStrLen, HKeys and HVals never change the result of any later call.", "quantifier": "all states, all read calls, all later calls", "why_tests_cant": "The claim ranges over every value / key / state; a test fixes a handful of them.", "anchors": ["cache/cachestring.go:Get", "cache/cachehash.go:HExists", "cache/cacheutil.go:expired"]}
{"id": "C11", "title": "StrLen is the length of Get", "statement": "StrLen(k) is the byte length of what Get(k) returns, 0 for an absent key, and a wrong-type error exactly when Get reports one.", "quantifier": "all states, keys, clock readings", "why_tests_cant": "The claim ranges over every value / key / state; a test fixes a handful of them.", "anchors": ["cache/cachestring.go:StrLen"]}
{"id": "C12", "title": "Append concatenates", "statement": "After Append(k,x), Get(k) returns the old value followed by x (x alone when k was absent) and the returned length is the length of what Get returns.", "quantifier": "all states, keys, byte strings", "why_tests_cant": "The claim ranges over every value / key / state; a test fixes a handful of them.", "anchors": ["cache/cachestring.go:Append"]}
{"id": "C13", "title": "SetRange overwrites a byte range", "statement": "SetRange(k,pos,r) makes byte i of the value r[i-pos] inside the range, keeps the old byte elsewhere, zero-pads gaps, returns the new length, and rejects pos<0 without effect.", "quantifier": "all states, keys, offsets, replacement strings", "why_tests_cant": "The claim ranges over every value / key / state; a test fixes a handful of them.", "anchors": ["cache/cachestring.go:SetRange"]}
{"id": "C14", "title": "GetRange is the inclusive substring", "statement": "GetRange(k,a,b) returns exactly the bytes at indexes i with a<=i<=b after mapping negative a,b to length+a, length+b, in order, and nothing outside the value.", "quantifier": "all states, keys, 64-bit a and b", "why_tests_cant": "The claim ranges over every value / key / state; a test fixes a handful of them. 2^128 index pairs.", "anchors": ["cache/cachestring.go:GetRange"]}
{"id": "C15", "title": "IncrBy adds", "statement": "IncrBy(k,n) on an integer value old returns old+n, and Get(k) then shows the decimal text of that number; the sum that does not fit 64 bits is rejected rather than stored.", "quantifier": "all states, all 64-bit old and n", "why_tests_cant": "The claim ranges over every value / key / state; a test fixes a handful of them. Overflow pairs are not sampled.", "anchors": ["cache/cachestring.go:IncrBy", "cache/cachestring.go:incrBy"]}
{"id": "C16", "title": "Counter updates add up in any order", "statement": "Any sequence of Incr/IncrBy/Decr/DecrBy calls on an absent key leaves the (64-bit) sum of the signed amounts, independent of their order; DecrBy n undoes IncrBy n.", "quantifier": "all sequences of counter calls of any length", "why_tests_cant": "The claim ranges over every history of API calls; tests run a few short scripted ones.", "anchors": ["cache/cachestring.go:incrBy", "cache/cachestring.go:Decr", "cache/cachestring.go:DecrBy", "cache/cachestring.go:Incr"]}
{"id": "C17", "title": "Failed increments change nothing", "statement": "Incr/IncrBy/Decr/DecrBy/IncrByFloat on a value that is not a number report a wrong-type error and leave every key unchanged.", "quantifier": "all states, keys, amounts", "why_tests_cant": "The claim ranges over every value / key / state; a test fixes a handful of them.", "anchors": ["cache/cachestring.go:incrBy", "cache/cachestring.go:IncrByFloat"]}
{"id": "C18", "title": "Counters restart after expiry", "statement": "Incr/IncrBy/IncrByFloat/SetNX/MSetNX on a key whose deadline has passed behave as on an absent key.", "quantifier": "all states, clock readings after the deadline", "why_tests_cant": "The claim ranges over every value / key / state; a test fixes a handful of them.", "anchors": ["cache/cachestring.go:incrBy", "cache/cachestring.go:SetNX", "cache/cachestring.go:IncrByFloat"]}
{"id": "C19", "title": "IncrByFloat depends only on the visible value", "statement": "IncrByFloat(k,x) on a key whose Get text is a number returns the IEEE-754 sum of that number and x and stores it, whichever calls produced that value.", "quantifier": "all histories producing a numeric value, all float64 x", "why_tests_cant": "The claim ranges over every history of API calls; tests run a few short scripted ones.", "anchors": ["cache/cachestring.go:IncrByFloat", "cache/cachestring.go:incrBy"]}
{"id": "C20", "title": "MSet sets every pair in any iteration order", "statement": "After MSet(kv) every key of kv reads back as Set would have stored it and other keys are unchanged, for every map iteration order.", "quantifier": "all finite maps, all iteration orders", "why_tests_cant": "The claim ranges over every value / key / state; a test fixes a handful of them. Go randomises map order; tests see a few.", "anchors": ["cache/cachestring.go:MSet"]}
{"id": "C21", "title": "MSetNX is all or nothing", "statement": "MSetNX(kv) stores either every pair or none, never overwrites an existing key, and its count is the number of keys stored, for every map iteration order.", "quantifier": "all states, finite maps, iteration orders", "why_tests_cant": "The claim ranges over every value / key / state; a test fixes a handful of them.", "anchors": ["cache/cachestring.go:MSetNX"]}
{"id": "C22", "title": "MGet is pointwise Get", "statement": "MGet(k1..kn) returns n results and the i-th equals what Get(ki) would return.", "quantifier": "all states, key lists of any length, with repetitions", "why_tests_cant": "The claim ranges over every value / key / state; a test fixes a handful of them.", "anchors": ["cache/cachestring.go:MGet"]}
{"id": "C23", "title": "Del removes a key completely", "statement": "Del(k) returns 1 iff k was readable, afterwards k is absent for every call and carries no deadline; a second Del returns 0.", "quantifier": "all states, keys, clock readings", "why_tests_cant": "The claim ranges over every value / key / state; a test fixes a handful of them.", "anchors": ["cache/cachedb.go:Del"]}
{"id": "C24", "title": "Exists counts readable keys", "statement": "Exists(k1..kn) returns the number of positions i for which ki is readable.", "quantifier": "all states, key lists, clock readings", "why_tests_cant": "The claim ranges over every value / key / state; a test fixes a handful of them.", "anchors": ["cache/cachedb.go:Exists"]}
{"id": "C25", "title": "Flush empties the cache", "statement": "After Flush every key is absent for every call and behaves as in a new cache.", "quantifier": "all states, keys", "why_tests_cant": "The claim ranges over every value / key / state; a test fixes a handful of them.", "anchors": ["cache/cachedb.go:Flush"]}
{"id": "C26", "title": "Type names the kind of value", "statement": "Type(k) is none for an absent key, hash for a key created by hash calls, string otherwise.", "quantifier": "all histories", "why_tests_cant": "The claim ranges over every history of API calls; tests run a few short scripted ones.", "anchors": ["cache/cachedb.go:Type"]}
{"id": "C27", "title": "The cron sweep removes only expired keys", "statement": "A tick of the background sweep leaves every key whose deadline has not passed (or that has none) readable with the same value.", "quantifier": "all states, tick times", "why_tests_cant": "The claim ranges over every value / key / state; a test fixes a handful of them.", "anchors": ["cache/cachecron.go:cronExpire"]}
{"id": "C28", "title": "Wrong-type calls fail cleanly", "statement": "A string call on a hash key and a hash call on a string key report the wrong-type error and change nothing (overwriting calls Set/MSet/SetEX/PSetEX excepted).", "quantifier": "all states, keys, calls", "why_tests_cant": "The claim ranges over every value / key / state; a test fixes a handful of them.", "anchors": ["cache/cachestring.go", "cache/cachehash.go"]}
{"id": "C29", "title": "No call panics", "statement": "No cache call panics, whatever the arguments and the history.", "quantifier": "all histories, all arguments", "why_tests_cant": "The claim ranges over every history of API calls; tests run a few short scripted ones.", "anchors": ["cache/cachehash.go:HKeys", "cache/cachehash.go:HVals", "cache/cachehash.go:HGetAll", "cache/cachelist.go"]}
{"id": "C30", "title": "HGet returns what HSet stored", "statement": "After HSet(k,f,v) (or HMSet/HSetNX creating f), HGet(k,f) returns the canonical text of v until the field is written again.", "quantifier": "all states, keys, fields, values", "why_tests_cant": "The claim ranges over every value / key / state; a test fixes a handful of them.", "anchors": ["cache/cachehash.go:HSet", "cache/cachehash.go:HGet", "cache/cachehash.go:HSetNX"]}
{"id": "C31", "title": "HLen is the number of fields", "statement": "HLen(k) equals the number of distinct fields readable through HGet/HKeys.", "quantifier": "all histories of hash calls", "why_tests_cant": "The claim ranges over every history of API calls; tests run a few short scripted ones. A counter drifts only after particular mixes of calls.", "anchors": ["cache/cachehash.go:HLen", "cache/cachehash.go:HExists", "cache/cachehash.go:HDel", "cache/cachehash.go:hashEntry"]}
{"id": "C32", "title": "HSetNX never overwrites", "statement": "HSetNX(k,f,v) returns 1 and stores v iff f was absent, otherwise returns 0 and leaves the field unchanged.", "quantifier": "all states, keys, fields, values", "why_tests_cant": "The claim ranges over every value / key / state; a test fixes a handful of them.", "anchors": ["cache/cachehash.go:HSetNX"]}
{"id": "C33", "title": "HDel removes exactly the named fields", "statement": "HDel(k,f1..fn) returns the number of distinct named fields that existed, removes them, and keeps all others.", "quantifier": "all states, field lists with repetitions", "why_tests_cant": "The claim ranges over every value / key / state; a test fixes a handful of them.", "anchors": ["cache/cachehash.go:HDel"]}
{"id": "C34", "title": "HIncrBy accumulates", "statement": "HIncrBy(k,f,n) returns old+n and leaves old+n in the field.", "quantifier": "all states, all 64-bit old and n", "why_tests_cant": "The claim ranges over every value / key / state; a test fixes a handful of them.", "anchors": ["cache/cachehash.go:HIncrBy"]}
{"id": "C35", "title": "HIncrByFloat accumulates", "statement": "HIncrByFloat(k,f,x) on a numeric field returns old+x and leaves it in the field.", "quantifier": "all states, all float64 values", "why_tests_cant": "The claim ranges over every value / key / state; a test fixes a handful of them.", "anchors": ["cache/cachehash.go:HIncrByFloat"]}
{"id": "C36", "title": "HMSet/HMGet are pointwise", "statement": "HMSet(k,fv) has the effect of HSet for each pair in any order and returns the number of new fields; HMGet returns, position by position, what HGet returns.", "quantifier": "all states, finite maps, iteration orders, field lists", "why_tests_cant": "The claim ranges over every value / key / state; a test fixes a handful of them.", "anchors": ["cache/cachehash.go:HMSet", "cache/cachehash.go:HMGet"]}
{"id": "C37", "title": "HKeys, HVals and HGetAll list the hash", "statement": "HKeys returns every field exactly once, HVals one value per field, HGetAll the map of all fields to their HGet values.", "quantifier": "all reachable hashes", "why_tests_cant": "The claim ranges over every history of API calls; tests run a few short scripted ones.", "anchors": ["cache/cachehash.go:HKeys", "cache/cachehash.go:HVals", "cache/cachehash.go:HGetAll"]}
{"id": "C38", "title": "HStrLen is the length of HGet", "statement": "HStrLen(k,f) is the byte length of what HGet(k,f) returns, 0 when absent.", "quantifier": "all states, keys, fields", "why_tests_cant": "The claim ranges over every value / key / state; a test fixes a handful of them.", "anchors": ["cache/cachehash.go:HStrLen"]}
{"id": "C39", "title": "Fields are isolated", "statement": "A hash call naming field f of key k never changes what HGet returns for another field of k.", "quantifier": "all states, hash calls, other fields", "why_tests_cant": "The claim ranges over every value / key / state; a test fixes a handful of them.", "anchors": ["cache/cachehash.go"]}
{"id": "C40", "title": "Locked string calls are linearizable", "statement": "For every schedule of concurrent Set/SetNX/SetEX/PSetEX/GetSet/Append/SetRange/Incr*/Decr*/Del calls, outputs and final state equal those of some sequential order.", "quantifier": "all numbers of goroutines, call lists, schedules", "why_tests_cant": "The claim ranges over every goroutine schedule; a test observes the few schedules the runtime happens to pick.", "anchors": ["cache/cache.go:Cache.lock", "cache/cachestring.go"]}
{"id": "C41", "title": "Concurrent increments are never lost", "statement": "If n goroutines run any numbers of IncrBy on one key, the final value is the initial value plus all amounts, for every schedule.", "quantifier": "all numbers of goroutines, amounts, schedules", "why_tests_cant": "The claim ranges over every goroutine schedule; a test observes the few schedules the runtime happens to pick.", "anchors": ["cache/cachestring.go:IncrBy"]}
{"id": "C42", "title": "Concurrent readers never see an expired value", "statement": "Get never returns a value whose deadline had passed when the call started, even with concurrent reads. It can, if and only if two different goroutines call Get for the expired key.", "quantifier": "all schedules of concurrent Gets", "why_tests_cant": "The claim ranges over every goroutine schedule; a test observes the few schedules the runtime happens to pick.", "anchors": ["cache/cachestring.go:Get", "cache/cacheutil.go:expired"]}
{"id": "C43", "title": "Concurrent hash writes are not lost", "statement": "If two goroutines HSet different fields of one key, both fields are readable after both return.", "quantifier": "all schedules of two HSet calls", "why_tests_cant": "The claim ranges over every goroutine schedule; a test observes the few schedules the runtime happens to pick.", "anchors": ["cache/cachehash.go:HSet"]}
{"id": "C44", "title": "MSet is atomic for concurrent callers", "statement": "No concurrent MGet observes some but not all pairs of one MSet. It does: each slot shows the value after some first part of the pairs was written, the parts growing from slot to slot, and every such answer is possible; so an MGet can see half an MSet if and only if two of its slots are of keys whose value changes. The same holds of any number of goroutines that call Set and MSet, with their writes in any order that keeps the order of each goroutine.", "quantifier": "all schedules", "why_tests_cant": "The claim ranges over every goroutine schedule; a test observes the few schedules the runtime happens to pick.", "anchors": ["cache/cachestring.go:MSet", "cache/cachestring.go:MGet"]}
{"id": "C45", "title": "Messages survive the wire", "statement": "Reading the bytes of Serialize(m) yields m back and leaves exactly the bytes that follow, for every message (nested arrays included) whose text lines contain no newline, once those bytes are buffered.", "quantifier": "all messages of any nesting and size", "why_tests_cant": "The claim ranges over every value / key / state; a test fixes a handful of them.", "anchors": ["redis/protocol.go:Serialize", "redis/conn.go:readMessage"]}
{"id": "C46", "title": "Decoding does not depend on fragmentation", "statement": "The decoded message does not depend on how the network splits the bytes into reads.", "quantifier": "all messages, all ways to split the byte stream", "why_tests_cant": "The claim ranges over every value / key / state; a test fixes a handful of them.", "anchors": ["redis/conn.go:readMessage"]}
{"id": "C47", "title": "Command arguments are binary safe", "statement": "The bytes sent for a command decode to exactly its argument list; two different argument lists never produce the same bytes.", "quantifier": "all argument lists of byte strings", "why_tests_cant": "The claim ranges over every value / key / state; a test fixes a handful of them.", "anchors": ["redis/redis.go:ConvertToMessage", "redis/protocol.go:bulkStringMessage.Serialize", "redis/command.go:BaseCommand.Serialize"]}
{"id": "C48", "title": "Pipelined replies stay in order", "statement": "Reading n messages from the concatenation of n serialized messages yields them in order with nothing lost, duplicated or left over.", "quantifier": "all lists of messages", "why_tests_cant": "The claim ranges over every value / key / state; a test fixes a handful of them.", "anchors": ["redis/conn.go:readMessage", "redis/conn.go:Recv"]}
{"id": "C49", "title": "Bad input is rejected with an error", "statement": "Whatever bytes arrive, reading a message returns a message or an error; it never panics.", "quantifier": "all byte streams", "why_tests_cant": "The claim ranges over every value / key / state; a test fixes a handful of them. All byte streams is an unbounded fuzz space.", "anchors": ["redis/conn.go:readMessage"]}
{"id": "C50", "title": "The snapshot is saved byte for byte", "statement": "The file written during SYNC holds exactly the announced payload bytes and the stream is left positioned right behind them, for every fragmentation; a short stream is an error.", "quantifier": "all payloads, following bytes, ways to split the stream", "why_tests_cant": "The claim ranges over every value / key / state; a test fixes a handful of them.", "anchors": ["redis/conn.go:ReadWithWriter", "redis/replication.go:sync"]}
{"id": "C51", "title": "Replies map to results", "statement": "For each command type an error or nil reply yields an error, and a success reply yields its value and no error.", "quantifier": "all replies", "why_tests_cant": "The claim ranges over every value / key / state; a test fixes a handful of them.", "anchors": ["redis/command.go", "redis/conn.go:ExecCommand"]}
{"id": "C52", "title": "Every client method sends its own command", "statement": "Each remote method sends the Redis command of the same name with its arguments in Redis' order.", "quantifier": "all arguments of all methods", "why_tests_cant": "The claim ranges over every value / key / state; a test fixes a handful of them.", "anchors": ["redis/redis.go"]}
{"id": "C53", "title": "The pool never exceeds its capacity and never shares a connection", "statement": "At every moment of every schedule at most capacity connections have been opened and no connection is held by two callers.", "quantifier": "all schedules, numbers of callers, capacities", "why_tests_cant": "The claim ranges over every goroutine schedule; a test observes the few schedules the runtime happens to pick.", "anchors": ["redis/pool.go:Get", "redis/pool.go:Put"]}
{"id": "C54", "title": "Returning a connection never blocks", "statement": "Put of a connection obtained from Get never blocks, and connections are neither lost nor duplicated: every opened connection is idle in the pool or held by exactly one caller.", "quantifier": "all schedules", "why_tests_cant": "The claim ranges over every goroutine schedule; a test observes the few schedules the runtime happens to pick.", "anchors": ["redis/pool.go:Put"]}
{"id": "C55", "title": "The pool survives a failed dial", "statement": "After a failed attempt to open a connection later callers can still obtain one.", "quantifier": "all schedules, all points of failure", "why_tests_cant": "The claim ranges over every goroutine schedule; a test observes the few schedules the runtime happens to pick.", "anchors": ["redis/pool.go:Get", "redis/pool.go:create"]}
{"id": "C56", "title": "Close returns", "statement": "Close of a pool whose connections are all idle closes them and returns.", "quantifier": "all pool states", "why_tests_cant": "The claim ranges over every value / key / state; a test fixes a handful of them.", "anchors": ["redis/pool.go:Close"]}
{"id": "C57", "title": "Decompression inverts compression", "statement": "For every input, if the compressor reports success then decompressing its output gives the input back, whatever garbage its hash table initially holds.", "quantifier": "all inputs, output sizes, initial hash-table contents", "why_tests_cant": "The claim ranges over every value / key / state; a test fixes a handful of them. The uninitialised table makes the compressor nondeterministic.", "anchors": ["redis/lzf/lzf_c.c:lzf_compress", "redis/lzf/lzf_d.c:lzf_decompress"]}
{"id": "C58", "title": "The compressor stays inside its buffers", "statement": "lzf_compress never writes outside the output buffer and never reads outside the input.", "quantifier": "all inputs, output sizes, initial hash-table contents", "why_tests_cant": "The claim ranges over every value / key / state; a test fixes a handful of them.", "anchors": ["redis/lzf/lzf_c.c:lzf_compress"]}
{"id": "C59", "title": "The decompressor stays inside its buffers", "statement": "lzf_decompress on arbitrary (corrupt) input terminates, never reads outside the input or writes outside the output, and never reads output bytes it has not written.", "quantifier": "all byte strings of length >= 1, all output sizes", "why_tests_cant": "The claim ranges over every value / key / state; a test fixes a handful of them.", "anchors": ["redis/lzf/lzf_d.c:lzf_decompress"]}
{"id": "C60", "title": "Any conforming LZF stream decodes correctly", "statement": "Decompressing the encoding of any sequence of literal runs and back-references yields the bytes that sequence denotes.", "quantifier": "all well-formed token sequences", "why_tests_cant": "The claim ranges over every value / key / state; a test fixes a handful of them.", "anchors": ["redis/lzf/lzf_d.c:lzf_decompress"]}
{"id": "C61", "title": "Go wrapper round trip", "statement": "DeCompress(Compress(s), len(s)) = s.", "quantifier": "all strings s", "why_tests_cant": "The claim ranges over every value / key / state; a test fixes a handful of them.", "anchors": ["redis/lzf/lzf.go:Compress", "redis/lzf/lzf.go:DeCompress"]}
{"id": "C62", "title": "RDB lengths decode", "statement": "Reading the RDB encoding of a length yields that length.", "quantifier": "all 64-bit lengths in each of the four encodings", "why_tests_cant": "The claim ranges over every value / key / state; a test fixes a handful of them.", "anchors": ["redis/rdb/rdb.go:LoadLen"]}
{"id": "C63", "title": "RDB strings decode", "statement": "Reading the RDB encoding of a string (raw, 8/16/32-bit integer, LZF) yields the string.", "quantifier": "all strings and integers in every encoding", "why_tests_cant": "The claim ranges over every value / key / state; a test fixes a handful of them.", "anchors": ["redis/rdb/rdb.go:LoadString"]}
{"id": "C64", "title": "RDB strings may cross read boundaries", "statement": "The decoded string does not depend on how the file is read in blocks.", "quantifier": "all strings, all block boundaries", "why_tests_cant": "The claim ranges over every value / key / state; a test fixes a handful of them.", "anchors": ["redis/rdb/rdb.go:LoadString"]}
{"id": "C65", "title": "Loading a snapshot emits one command per key, in order", "statement": "Loading a snapshot file emits exactly the commands that recreate its keys, in file order, each tagged with the selected database, and ends successfully at the end marker.", "quantifier": "all snapshot files built from the format, of any number of entries", "why_tests_cant": "The claim ranges over every value / key / state; a test fixes a handful of them.", "anchors": ["redis/replication.go:Load"]}
{"id": "C66", "title": "Deadlines in a snapshot attach to their key", "statement": "An expiry record produces exactly one expire command, for the next key only, with the recorded time in milliseconds.", "quantifier": "all snapshot entries, all 32/64-bit times", "why_tests_cant": "The claim ranges over every value / key / state; a test fixes a handful of them.", "anchors": ["redis/replication.go:Load"]}
{"id": "C67", "title": "Loading reports damage", "statement": "Loading terminates on every file, and it reports success only if the end marker was reached.", "quantifier": "all byte strings as files", "why_tests_cant": "The claim ranges over every value / key / state; a test fixes a handful of them.", "anchors": ["redis/replication.go:Load", "redis/rdb/rdb.go"]}
{"id": "C68", "title": "Collections are recreated by the right command", "statement": "A list/set/sorted-set/hash record is turned into the command that recreates that kind of value with elements in the right order.", "quantifier": "all collection records", "why_tests_cant": "The claim ranges over every value / key / state; a test fixes a handful of them.", "anchors": ["redis/replication.go:Load"]}
{"id": "C69", "title": "Scores decode", "statement": "Sorted-set scores (text, infinities, NaN, binary) are decoded to the encoded number.", "quantifier": "all 64-bit doubles in both encodings", "why_tests_cant": "The claim ranges over every value / key / state; a test fixes a handful of them.", "anchors": ["redis/rdb/rdb.go:LoadDouble", "redis/rdb/rdb.go:LoadBinaryDouble"]}
{"id": "C70", "title": "Integer sets decode", "statement": "Loading the packed encoding of a list of integers yields those integers in order.", "quantifier": "all lists of 16/32/64-bit signed integers", "why_tests_cant": "The claim ranges over every value / key / state; a test fixes a handful of them.", "anchors": ["redis/intset/intset.go:Load"]}
{"id": "C71", "title": "Packed lists decode", "statement": "Loading the packed (ziplist) encoding of a list of values yields those values in order.", "quantifier": "all lists of strings and integers, all previous-length encodings", "why_tests_cant": "The claim ranges over every value / key / state; a test fixes a handful of them.", "anchors": ["redis/ziplist/ziplist.go:Load"]}
{"id": "C72", "title": "Packed maps decode", "statement": "Loading the packed (zipmap) encoding of a map yields that map.", "quantifier": "all maps, free-space paddings", "why_tests_cant": "The claim ranges over every value / key / state; a test fixes a handful of them.", "anchors": ["redis/zipmap/zipmap.go:Load"]}
{"id": "C73", "title": "A packed map finds what was put in", "statement": "After Set(key,value) on a packed map, Lookup(key) succeeds, keys not set are not found, and setting an existing key changes nothing.", "quantifier": "all sequences of Set calls", "why_tests_cant": "The claim ranges over every history of API calls; tests run a few short scripted ones.", "anchors": ["redis/zipmap/zipmap.go:Set", "redis/zipmap/zipmap.go:Lookup"]}
{"id": "C74", "title": "A replicated SET is applied exactly", "statement": "Handling a replicated set message has the effect of Set; every unsupported message is reported as an error and changes nothing; no message makes the handler panic.", "quantifier": "all messages, all cache states", "why_tests_cant": "The claim ranges over every value / key / state; a test fixes a handful of them.", "anchors": ["cache/message.go:HandleMessage"]}
{"id": "C75", "title": "Replica convergence", "statement": "After handling any stream of set messages the replica returns, for every key, the last value set for it on the master.", "quantifier": "all message streams of any length", "why_tests_cant": "The claim ranges over every history of API calls; tests run a few short scripted ones.", "anchors": ["cache/message.go:HandleMessage", "xxcache.go:handleReplication"]}
{"id": "C76", "title": "Only the configured database is applied", "statement": "A message that belongs to another database never changes the local cache.", "quantifier": "all message streams with database switches", "why_tests_cant": "The claim ranges over every history of API calls; tests run a few short scripted ones.", "anchors": ["xxcache.go:handleReplication", "redis/replication.go:WaitForMessage"]}
{"id": "C77", "title": "The replication handler never blocks forever", "statement": "As long as messages keep arriving the handler keeps consuming them.", "quantifier": "all schedules of the receiver, the acknowledger and the handler", "why_tests_cant": "The claim ranges over every goroutine schedule; a test observes the few schedules the runtime happens to pick.", "anchors": ["xxcache.go:handleReplication", "redis/replication.go:WaitForMessage", "redis/replication.go:Ack"]}
{"id": "C78", "title": "A new client is usable", "statement": "After New returns without error, Get returns a value or an error for every key.", "quantifier": "all options, all keys", "why_tests_cant": "The claim ranges over every value / key / state; a test fixes a handful of them.", "anchors": ["xxcache.go:New", "command.go:Client.Get"]}
{"id": "C79", "title": "Snapshot plus stream equals the master", "statement": "After loading a snapshot of string keys and then handling a stream of set messages, Get returns for every key of the configured database its latest master value.", "quantifier": "all snapshots, all streams", "why_tests_cant": "The claim ranges over every history of API calls; tests run a few short scripted ones.", "anchors": ["redis/replication.go:Load", "cache/message.go:HandleMessage", "xxcache.go:handleReplication"]}
{"id": "C80", "title": "Integer text round trip", "statement": "Parsing the decimal text of any 64-bit integer gives it back; parsing accepts exactly optionally signed digit strings whose value fits in 64 bits.", "quantifier": "all 64-bit integers, all byte strings", "why_tests_cant": "The claim ranges over every value / key / state; a test fixes a handful of them.", "anchors": ["cache/cachestring.go:tryInt64", "redis/conn.go:readMessage"]}
{"id": "C81", "title": "Float text round trip", "statement": "Parsing the shortest decimal text of any float64 gives it back bit for bit (NaN to NaN); the text shown is the shortest one: no decimal that reads as the number has fewer digits, and of those with as few it is the closest to the exact value.", "quantifier": "all 2^64 float64 values", "why_tests_cant": "The claim ranges over every value / key / state; a test fixes a handful of them. 2^64 values.", "anchors": ["cache/cachestring.go:fmtString", "cache/cachestring.go:tryInt64"]}
{"id": "C82", "title": "Float arithmetic is correctly rounded", "statement": "IncrByFloat stores the float64 nearest to the exact real sum (ties to even), overflow giving infinity.", "quantifier": "all pairs of float64", "why_tests_cant": "The claim ranges over every value / key / state; a test fixes a handful of them.", "anchors": ["cache/cachestring.go:IncrByFloat"]}
{"id": "C83", "title": "Nobody waits while the pool has room", "statement": "A caller of the pool waits for a connection only while capacity connections are open.", "quantifier": "all schedules, numbers of callers, capacities", "why_tests_cant": "The bad interleaving needs one caller to take the connection another one just dialled; a test cannot force or enumerate schedules.", "anchors": ["redis/pool.go:Get", "redis/pool.go:tryNewConn"]}
{"id": "C84", "title": "Compression expands only a little", "statement": "A successful compression uses at most one extra byte per 32 bytes of input (so less than 104% of the input size, as lzf.h documents), and with that much room it never fails.", "quantifier": "all inputs, output sizes, initial hash-table contents", "why_tests_cant": "The worst case depends on the input and on uninitialised memory; a test tries a few inputs with one stack content.", "anchors": ["redis/lzf/lzf_c.c:lzf_compress", "redis/lzf/lzf.h"]}
{"id": "C85", "title": "The snapshot is saved exactly", "statement": "When the master answers the ping and sends a snapshot, the file contains exactly the bytes of the snapshot, and the next message is read from right behind it.", "quantifier": "all snapshots, all ways in which the network cuts the bytes", "why_tests_cant": "The claim ranges over every file content and every cut of the byte stream.", "anchors": ["redis/replication.go:SyncWithRedis", "redis/replication.go:sync", "redis/conn.go:ReadWithWriter"]}
{"id": "C86", "title": "A refused synchronisation is an error", "statement": "If the master answers the ping or the SYNC command with anything but PONG and a snapshot, connecting reports an error.", "quantifier": "all replies of the master", "why_tests_cant": "The claim ranges over every possible reply.", "anchors": ["redis/replication.go:ping", "redis/replication.go:sync"]}
{"id": "C87", "title": "Waiting for the snapshot", "statement": "The line feeds a master sends while it prepares the snapshot are skipped.", "quantifier": "all numbers of line feeds, all snapshots", "why_tests_cant": "It depends on the time the master needs; no test has a slow master.", "anchors": ["redis/replication.go:sync", "redis/conn.go:ReadWithWriter"]}
{"id": "C88", "title": "New returns", "statement": "New returns, with a client or an error, whatever the snapshot contains.", "quantifier": "all snapshots, all schedules of the loader and the handler", "why_tests_cant": "The claim ranges over every goroutine schedule and snapshots larger than the channel.", "anchors": ["xxcache.go:New", "xxcache.go:handleReplication", "redis/replication.go:Load"]}
{"id": "C89", "title": "Prefix consistency of the replica", "statement": "At every moment the replica shows what the master showed after some first part of its assignments, and it never goes back.", "quantifier": "all snapshots and streams of assignments, all schedules, all moments", "why_tests_cant": "The claim ranges over every goroutine schedule and every moment.", "anchors": ["xxcache.go:handleReplication", "redis/replication.go:WaitForMessage", "redis/replication.go:Load"]}
{"id": "C90", "title": "Conformance to Redis", "statement": "Every call answers as the Redis command of the same name is documented to answer, over any history of calls.", "quantifier": "all histories of calls with non-decreasing times, all keys, values and TTLs", "why_tests_cant": "The claim compares whole histories; each call is right or wrong depending on every call before it.", "anchors": ["cache/cachestring.go", "cache/cachehash.go", "cache/cachedb.go"]}
{"id": "C91", "title": "Replies answer their own requests", "statement": "Every call of a remote client gets the reply the server gave to that call, also when several goroutines use several connections at once.", "quantifier": "all servers, all sequences of calls on any number of connections in any interleaving, all ways the network cuts replies", "why_tests_cant": "A reply is mistaken only for particular values cut at particular places; the cuts and the interleavings are chosen by the network and the scheduler.", "anchors": ["redis/conn.go:SendAndWaitReply", "redis/conn.go:readMessage", "redis/pool.go:ExecCommand"]}
{"id": "C92", "title": "A remote client keeps working", "statement": "A client that can reach a server accepting it answers every call, also after a connection was lost or the server was away for a while.", "quantifier": "all sequences of calls, lost connections and failed dials", "why_tests_cant": "The claim is about all later calls, without bound.", "anchors": ["redis/pool.go:Get", "redis/pool.go:Put", "redis/pool.go:ExecCommand"]}
{"id": "C93", "title": "Connections are logged in and on the configured database", "statement": "Every connection a client uses has been authenticated with the configured password and is on the configured database; a connection on which either was refused is never used; Select changes the database of the client (it does not: of a pool of n connections every n-th of the following calls is made on the new database, so all follow it if and only if the pool holds one connection).", "quantifier": "all servers, options, sessions, ways replies are cut, lost connections", "why_tests_cant": "The invariant ranges over every connection of every session.", "anchors": ["redis/redis.go:NewClient", "redis/redis.go:Select", "redis/pool.go:create"]}
{"id": "C94", "title": "Remote calls end to end", "statement": "The answers a program gets from a remote client are those the Redis documentation gives for its calls on the configured database.", "quantifier": "all servers with any contents, all options, all histories of calls, all ways the network cuts replies that can be read", "why_tests_cant": "The claim composes encoding, transport, the meaning of every earlier call and decoding over histories of any length.", "anchors": ["redis/redis.go", "redis/command.go", "redis/conn.go:ExecCommand", "redis/pool.go:ExecCommand"]}
{"id": "C95", "title": "Local cache and remote client are interchangeable", "statement": "The same history of calls on an empty local cache and through a remote client on an empty database gives the same answers.", "quantifier": "all histories of calls with non-decreasing times", "why_tests_cant": "The two sides share no code; agreement at every step depends on the whole history.", "anchors": ["cache/cachestring.go", "redis/redis.go"]}
{"id": "C96", "title": "HExists agrees with HGet", "statement": "HExists(k,f) answers 1 exactly when HGet(k,f) at the same moment finds a value, 0 exactly when it finds none, and fails exactly when HGet fails for another reason.", "quantifier": "all states, keys, fields, times", "why_tests_cant": "The claim ranges over every state; a test fixes a handful of them.", "anchors": ["cache/cachehash.go:HExists", "cache/cachehash.go:HGet"]}
{"id": "C97", "title": "Names are opaque", "statement": "Replacing the key names of a history (and the field names of its hashes) by other names, different names staying different, changes no answer except that HKeys lists the new field names. In particular a common prefix for all keys changes nothing.", "quantifier": "all histories, all injective maps on key names and on field names", "why_tests_cant": "The claim compares every history with all its renamings; a test fixes the names.", "anchors": ["cache/cachestring.go", "cache/cachehash.go", "cache/cachedb.go", "cache/cacheutil.go"]}
{"id": "C98", "title": "Only elapsed time counts", "statement": "Moving all clock readings of a history by the same amount changes no answer: deadlines behave the same whatever the date.", "quantifier": "all histories, all shifts that keep the clock after the year 1", "why_tests_cant": "A test runs at one date; the claim compares all dates and histories.", "anchors": ["cache/cacheutil.go:expired", "cache/cacheutil.go:expires", "cache/cachecron.go:cronExpire"]}
{"id": "C99", "title": "Nothing comes out of thin air", "statement": "A key that exists was created by a call made since the cache was new, the key was deleted or the cache flushed. If no call computed a value for the key, what Get shows is the text of a value some such call gave for that very key. What HGet shows is the text of a value some such call gave for that very field of that very hash.", "quantifier": "all histories, keys, fields, times", "why_tests_cant": "It excludes values from anywhere else over histories of any length.", "anchors": ["cache/cachestring.go", "cache/cachehash.go", "cache/cachedb.go"]}
{"id": "C100", "title": "Independent calls commute", "statement": "Two callers that use disjoint sets of keys leave the cache in the same state and get the same answers however their calls interleave.", "quantifier": "all states, all pairs of histories over disjoint keys, all interleavings", "why_tests_cant": "The number of interleavings grows exponentially with the length of the histories.", "anchors": ["cache/cachestring.go", "cache/cachehash.go", "cache/cachedb.go"]}
{"id": "C101", "title": "Every call returns", "statement": "However many goroutines use one cache at once, with whatever calls, there is no deadlock and no endless call: as long as the scheduler keeps running goroutines that can run, every call returns, and each goroutine gets one answer per call in its own order. This holds also when no reader is let in while a writer waits.", "quantifier": "all states, all finite sets of goroutines with any calls, all fair schedules", "why_tests_cant": "A test that does not hang shows one schedule; deadlock and livelock are claims about all of them.", "anchors": ["cache/cachestring.go", "cache/cachehash.go", "cache/cachedb.go", "cache/cachecron.go:cronExpire"]}
{"id": "C102", "title": "Goroutines that share keys only under the lock see one sequential cache", "statement": "Take goroutines making any calls (strings, deadlines, hashes, counters, several keys at once, the background sweep) such that two calls of different goroutines use a common key that one of them may change only when both take the lock and one takes it for writing; reading a key that has a deadline counts as changing it, and MGet of several keys is used for keys without deadlines. Then all answers are those of one sequential history, in the order of the returns and also in an order of non-decreasing times that keeps each goroutine's order; each call takes effect at a time between its being made and its return, so a call that returned before another was made comes first in both; when nothing is in progress the cache is the one this history leaves.", "quantifier": "all states, all numbers of goroutines, all such calls, all schedules and clocks", "why_tests_cant": "The claim ranges over all schedules of unlocked pointer operations.", "anchors": ["cache/cachestring.go", "cache/cachehash.go", "cache/cachedb.go", "cache/cachecron.go:cronExpire", "cache/cacheutil.go"]}
{"id": "C103", "title": "MGet shows one moment", "statement": "The values MGet returns were all current at one and the same moment during the call.", "quantifier": "all states, keys, schedules and clocks", "why_tests_cant": "It depends on the clock and on other goroutines between the reads of two keys.", "anchors": ["cache/cachestring.go:MGet", "cache/cacheutil.go:get"]}
{"id": "C104", "title": "Races elsewhere do not reach a goroutine's own keys", "statement": "If the keys of one goroutine are used by nobody else, its answers are those of its calls made one after the other on the cache as it was, and its keys end as those calls leave them, however wildly other goroutines race on other keys: creating the same hash twice, deleting it under a writer, losing counter updates. The same holds for a group of goroutines that share their keys only under the lock. A key nobody names never changes.", "quantifier": "all states, all sets of goroutines with any calls on other keys, all schedules and clocks", "why_tests_cant": "It separates the keys of one goroutine from every possible race of the others.", "anchors": ["cache/cachestring.go", "cache/cachehash.go", "cache/cachedb.go", "cache/cacheutil.go", "cache/cachecron.go:cronExpire"]}
{"id": "C105", "title": "Nothing comes out of thin air, even when goroutines race", "statement": "Goroutines start on an empty cache and race in any way. If no call computes a value for a key, what Get, GetSet and MGet show for it is the text of one value some call gave for that very key, never a mixture. What HGet and HMGet show is the text of one value given for that very field of that very hash; HKeys lists only fields that were given a value in that hash; HVals lists only values given for a field of that hash. MGet and HMGet answer one slot per name, in order.", "quantifier": "all goroutines and calls, all schedules and clocks, including racing ones", "why_tests_cant": "A race detector or stress test samples schedules; the claim is about all of them.", "anchors": ["cache/cachestring.go", "cache/cachehash.go", "cache/cachedb.go", "cache/cacheutil.go:get"]}
{"id": "C106", "title": "Goroutines that share one remote client do not get each other's replies", "statement": "Any number of goroutines call methods of one client whose pool has any capacity. A call that returns sent its request once, on one connection, after it was made. What it returns is the server's reply to that very request, run between call and return with nothing else on that connection in between, unless the connection was lost; then it may be an error. The server runs no request twice and none that was not called. If nobody calls Select, all replies are those of one store that runs the requests one after the other. As long as no call failed for want of a connection, calls never wait for each other in a circle: every call returns after a bounded number of moves.", "quantifier": "all numbers of goroutines, calls, capacities, servers, schedules, losses of connections and clocks", "why_tests_cant": "It ranges over all interleavings of pool, connections and server, and all moments at which a connection may be lost.", "anchors": ["redis/redis.go", "redis/pool.go:Get", "redis/pool.go:Put", "redis/pool.go:ExecCommand", "redis/conn.go:SendAndWaitReply", "redis/conn.go:Recv"]}
{"id": "C107", "title": "Requests go out whole and in order", "statement": "Whatever requests are sent on one connection, and wherever the connection fails, the calls of Send succeed up to some point and fail from there on. The server receives exactly the requests that were sent successfully, in order, at most one more (the first that failed, if only its confirmation was lost), and nothing of the later ones.", "quantifier": "all series of requests of any sizes, all failures of the connection", "why_tests_cant": "Requests longer than the buffer take several writes, each of which may fail after any number of bytes; tests do not make a connection fail at a chosen byte.", "anchors": ["redis/conn.go:Send", "redis/conn.go:SendAndWaitReply", "redis/protocol.go"]}
{"id": "C108", "title": "A snapshot that does not fit on the disk", "statement": "If the disk does not take the whole snapshot, connecting reports an error; it never goes on with a part of the keys.", "quantifier": "all snapshots, all failures of the disk", "why_tests_cant": "A test disk does not fill up at a chosen byte.", "anchors": ["redis/conn.go:ReadWithWriter", "redis/replication.go:sync", "redis/replication.go:Load", "xxcache.go:New"]}
{"id": "C109", "title": "The replica tells the master how far it got", "statement": "After connecting, each acknowledgement the replica sends to the master carries the position it has reached: the position recorded in the snapshot plus the bytes of the commands received since. The identity and the position recorded in the snapshot are read wherever they stand in it.", "quantifier": "all snapshots of supported types, all command streams, all interleavings of receiving, applying and acknowledging", "why_tests_cant": "The acknowledged position depends on everything received so far and on the moment; a test sees a few moments of one stream.", "anchors": ["redis/replication.go:ack", "redis/replication.go:Ack", "redis/replication.go:SetReplicationOffset", "redis/replication.go:SetReplicationId", "redis/replication.go:Load"]}
{"id": "C110", "title": "A client reads what was written", "statement": "If Set(k, v) of a client returned without error and nobody set k to anything else, Get(k) of that client returns v. In general Get shows what the master holds.", "quantifier": "all numbers of goroutines and other clients setting and reading keys, all schedules of them, of the master and of the replication, connections lost at any time", "why_tests_cant": "Set goes to the master and Get looks into a cache that is filled by other goroutines; whether the value has arrived depends on the schedule, and a test sees a few of them.", "anchors": ["command.go:Get", "command.go:Set", "xxcache.go:New", "xxcache.go:handleReplication", "redis/replication.go:WaitForMessage", "redis/redis.go:Set"]}
{"id": "C111", "title": "A key that is not in the local cache is read from Redis", "statement": "As the README says: when Get does not find the key in the local cache and the master holds it, Get returns a value. When the replica has caught up, a key Get does not find is one the master does not hold.", "quantifier": "all numbers of goroutines setting and reading keys, all schedules of them, of the master and of the replication", "why_tests_cant": "Whether the local cache already has the key depends on the schedule; a test that waits for replication never sees the case.", "anchors": ["README.md", "command.go:Get", "xxcache.go:New", "cache.go:Get"]}
{"id": "C112", "title": "The cache follows the master after a lost connection", "statement": "Whatever the master carries out reaches the cache in the end, also when the connection over which it passes on its commands broke in between: after a loss the client connects again.", "quantifier": "all runs, all moments at which the connection breaks (with messages on their way), all continuations", "why_tests_cant": "That nothing ever arrives again is a statement about all continuations of a run; a test can only wait for a while.", "anchors": ["redis/replication.go:WaitForMessage", "xxcache.go:handleReplication", "xxcache.go:New"]}
{"id": "C113", "title": "Which texts are taken for numbers", "statement": "What Get shows after Set depends only on the text given: an integer literal within 64 bits shows in plain decimal; any other literal of Go's floating-point syntax (decimal or hexadecimal, underscores between digits, exponent) shows as the shortest decimal of the nearest float64; nan, inf and infinity in any case show as NaN, +Inf, -Inf; every other text, and a literal beyond the largest float64, shows byte for byte as given.", "quantifier": "all byte strings; all literals of the grammar with exponent below 100000 or at most 1000 mantissa digits; all cache states and times", "why_tests_cant": "The set of texts is infinite and the rule has many shapes (signs, prefixes, underscores, exponents, halfway cases); a table of examples leaves the rest open.", "anchors": ["cache/cachestring.go:tryInt64", "cache/cachestring.go:fmtString", "cache/cachestring.go:Set"]}
{"id": "C114", "title": "Concurrent use of a cache has no data race", "statement": "Goroutines that use one cache at the same time never access the same plain (unsynchronised) variable concurrently with one of them writing. It holds for the calls that take the lock in any mix, for pure look-ups, and for calls that use the sizes of different hashes; it fails for two calls that use the size of one hash when one may change it (HSet, HSetNX of different fields, HMSet, HDel, HIncrBy, HIncrByFloat and even HExists), and for Flush with any call that takes no lock.", "quantifier": "all numbers of goroutines, all lists of calls and arguments, all well-formed cache states, all schedules and clocks", "why_tests_cant": "A race shows only in some interleavings; the race detector sees only the schedules and arguments that a test happens to run.", "anchors": ["cache/cachehash.go:set", "cache/cachehash.go:HExists", "cache/cachehash.go:HDel", "cache/cachehash.go:HLen", "cache/cachedb.go:Flush", "cache/cache.go:Cache"]}
{"id": "C115", "title": "One Redis client may be shared by goroutines without a data race", "statement": "Goroutines that call methods of one Redis client at the same time never touch the same plain (unsynchronised) variable concurrently with one of them changing it. It fails as soon as there are two goroutines: every call copies the pool, its connection count and its mutex included, without holding the mutex. It holds for a single goroutine, and for any number of goroutines up to the pool size once every connection of the pool is open and nobody is waiting for one; the connection count is safe once the pool is full. The races do not change which connection anybody gets.", "quantifier": "all pool sizes, all numbers of goroutines, all schedules, with and without failing dials, timeouts and Close", "why_tests_cant": "The race detector only sees the schedules a test happens to run, and a warm pool shows none; here all schedules and all pool sizes are covered, and the exact condition for a race is given.", "anchors": ["redis/pool.go:Get", "redis/pool.go:Put", "redis/pool.go:create", "redis/pool.go:Close", "redis/pool.go:ExecCommand", "redis/pool.go:Exec", "redis/redis.go:process"]}
{"id": "C116", "title": "Runs of one byte compress well", "statement": "Compress of a text that repeats one byte n times (20 <= n < 2^32) returns at most 3 bytes for every full 264 of them plus 9, and DeCompress gives the text back.", "quantifier": "all bytes, all n, all contents of the uninitialised table the compressor works with", "why_tests_cant": "The compressor starts from whatever is on the stack, and the bound is claimed for every length.", "anchors": ["redis/lzf/lzf_c.c:lzf_compress", "redis/lzf/lzf.go:Compress"]}
{"id": "C117", "title": "The goroutines that New starts do not race with each other or with New", "statement": "New starts a handler before it loads the snapshot, and two more goroutines after it: one that acknowledges, one that receives the stream. Whatever the master sends, and however the four are interleaved, no plain (unsynchronised) variable - fields of the client and of the replication state, the buffers of the connection, the messages handed over - is accessed by two of them with one writing it unless the Go memory model orders the two accesses. (Entries of the cache, which is safe to share or not by itself, are C114.)", "quantifier": "all snapshots and streams, good and bad, all schedules of any length, all databases and channel capacities", "why_tests_cant": "The race detector sees only the schedules a test happens to run, and needs a master to talk to; here all schedules and all masters are covered.", "anchors": ["xxcache.go:New", "xxcache.go:handleReplication", "redis/replication.go:SyncWithRedis", "redis/replication.go:Load", "redis/replication.go:WaitForMessage", "redis/replication.go:Ack", "redis/replication.go:ack", "redis/conn.go:Send", "redis/conn.go:Recv"]}
{"id": "C118", "title": "Calls of New at the same time do not disturb each other", "statement": "Several calls of New run at the same time, each for its own master. Each comes to what it comes to alone: it returns the same error or none, and fills its cache from the snapshot of its own master. It holds as long as no call opens or writes a snapshot file another call is busy with, so in particular when every call names a file of its own. It is false for calls that use one file, as all calls do that leave the file name out (temp.rdb): one client is then filled with the keys of the other's master, without an error.", "quantifier": "any number of calls, all masters, options and earlier contents of the files, all interleavings of their reads and writes", "why_tests_cant": "It takes two calls whose file accesses interleave in an unlucky way; a test creates one client at a time.", "anchors": ["xxcache.go:New", "xxcache.go:prepareOption", "redis/replication.go:sync", "redis/replication.go:Load", "redis/conn.go:ReadWithWriter"]}
{"id": "C119", "title": "After New reported an error nothing of it goes on", "statement": "When New returned an error, nothing that it began goes on: the cache of the client it returned changes no more, nothing the master sends has an effect, and the process is not harmed.", "quantifier": "all snapshots, all errors at any place in them, all streams of the master, all schedules of the goroutines before and after the error", "why_tests_cant": "The effect comes later, in a goroutine New left behind, and only in some schedules; a test looks at the error New returned.", "anchors": ["xxcache.go:New", "xxcache.go:handleReplication", "redis/replication.go:Load", "cache/message.go:HandleMessage"]}
{"id": "C120", "title": "A reply that cannot be an answer is reported", "statement": "If the server's reply is of a kind the command never gives (a text for Incr, a number for MGet, a list for Get), the method returns an error, so that the caller does not take it for an answer.", "quantifier": "all methods, all arguments, all replies that are not errors or nil and not of the documented kind", "why_tests_cant": "Tests talk to a server that answers properly; every reply of another kind has to be considered for every method.", "anchors": ["redis/command.go:IntCommand.Parse", "redis/command.go:StringCommand.Parse", "redis/command.go:FloatCommand.Parse", "redis/command.go:OKCommand.Parse", "redis/command.go:InterfaceArrayCommand.Parse", "redis/conn.go:ExecCommand"]}
{"id": "C121", "title": "The process survives whatever the master sends", "statement": "Once New has returned, nothing a master sends - in the snapshot it sent before or in the stream behind it, well formed or not, and wherever it breaks off - ends the process that uses the client: messages that cannot be used are reported as errors.", "quantifier": "all snapshots, all streams of bytes in all fragmentations, all databases, all cache states, all schedules of the goroutines", "why_tests_cant": "The panic comes in a goroutine of the library and only for particular bytes at particular places; a test master sends proper commands.", "anchors": ["redis/replication.go:WaitForMessage", "redis/conn.go:Recv", "redis/protocol.go:ReadMessage", "xxcache.go:handleReplication", "cache/message.go:HandleMessage"]}
{"id": "C122", "title": "New can be tried again", "statement": "However often New has failed, a later call succeeds when the master is well and its snapshot can be loaded: a failed call takes up nothing for good. It holds for calls that fail before the snapshot is saved. Every call that came further keeps one connection open and one goroutine running for good, so under any limit on open descriptors enough such failures end in a state in which no call of New ever succeeds.", "quantifier": "all sequences of calls of New, all masters and files at each call, all limits on open descriptors, all moments of garbage collection", "why_tests_cant": "A test calls New a few times; the connections that are left count up over the life of a program that retries.", "anchors": ["xxcache.go:New", "xxcache.go:handleReplication", "redis/replication.go:SyncWithRedis", "redis/replication.go:sync", "redis/replication.go:Load", "redis/conn.go:Connect"]}
{"id": "C123", "title": "The repository's own tests of the cache pass", "statement": "Every test of cache/cachehash_test.go and cache/cachestring_test.go passes, in whatever state the tests before it left the shared client, whatever orders the maps are met in, and however often the suite is repeated. TestCache_HDel always fails: it expects that removing a removed field again counts it. TestCache_HExists passes exactly if there is no key \"a\", which TestCache_MSetNX leaves behind, so it fails in a second round; TestCache_GetRange and TestCache_DecrBy fail if run twice in a row. TestCache_SetEX and TestCache_PSetEX pass exactly if the clock falls on the expected sides of the deadline. The others pass.", "quantifier": "all states of the cache at the start, all clock readings, all orders of map iteration, any number of rounds", "why_tests_cant": "A test run shows one state, one clock and one map order; that a test is independent of what ran before it, or never can pass, is a statement about all of them.", "anchors": ["cache/cachehash_test.go:TestCache_HDel", "cache/cachehash_test.go:TestCache_HExists", "cache/cachestring_test.go:TestCache_GetRange", "cache/cachestring_test.go:TestCache_DecrBy", "cache/cachestring_test.go:TestCache_SetEX", "cache/cachestring_test.go:TestCache_MSetNX", "cache/cachehash.go:HDel"]}
{"id": "C124", "title": "A packed map can be read, counted, walked and shortened", "statement": "After any Set calls on a new packed map, Get returns the value set last for a key and says no for others, Len is the number of keys, BlobLen the number of bytes, an iteration yields every key and value, and Del removes a key. None of these methods does anything: Get is right exactly for keys never set, Len and the number of texts an iteration yields exactly for the empty map, BlobLen never, and the first key put in (if shorter than 2^32 bytes) is still found after Del.", "quantifier": "all sequences of Set calls, all keys and values", "why_tests_cant": "A test of the empty map passes; the claim is about every sequence of calls.", "anchors": ["redis/zipmap/zipmap.go:Get", "redis/zipmap/zipmap.go:Del", "redis/zipmap/zipmap.go:Len", "redis/zipmap/zipmap.go:BlobLen", "redis/zipmap/zipmap.go:Iterate", "redis/zipmap/zipmap.go:Next"]}
{"id": "C125", "title": "zipmap.Len tells by how much Set makes a map longer", "statement": "For every key and value the function Len gives the number of bytes the entry takes in the packed map after Set of a new key. Len is right about the format, but Set always adds one byte less, because it leaves out the byte that counts unused space.", "quantifier": "all keys, values and maps", "why_tests_cant": "The lengths change their encoding at 254 bytes; the claim covers all lengths and all maps.", "anchors": ["redis/zipmap/zipmap.go:Len", "redis/zipmap/zipmap.go:Set"]}
{"id": "C126", "title": "A packed list tells its length", "statement": "For every packed list whose header carries the count Redis writes, the length is the number of its elements, or 65535 if it has more. For at most 65535 elements, none of them a 64 bit integer or a string of 256 bytes or more, it is also the number of elements Load returns. Asking for it panics exactly if the text is shorter than the header.", "quantifier": "all well-formed packed lists, all texts", "why_tests_cant": "The claim ranges over every list; a test fixes a handful of them.", "anchors": ["redis/ziplist/ziplist.go:Length", "redis/ziplist/ziplist.go:Load"]}
{"id": "C127", "title": "Timeouts and retries of a remote client are honoured", "statement": "A call of a client with a timeout returns when the time is up, and a call whose connection is lost is tried again MaxRetry times. The options Timeout, ReadTimeout, WriteTimeout and MaxRetry have no effect: NewClient makes the same client whatever they are; on a server that takes requests and never answers one, no call that got a connection ever returns; and once the connections of the pool are closed by the server every later call fails with the end of the stream.", "quantifier": "all options, any number of goroutines and calls, all schedules, any amount of time (the retries: one goroutine, all histories)", "why_tests_cant": "A test cannot wait for ever, and a server that answers hides that the options are ignored.", "anchors": ["redis/redis.go:NewClient", "redis/redis.go:Option", "redis/conn.go:WithTimeout", "redis/conn.go:WithReadTimeout", "redis/conn.go:WithWriteTimeout", "redis/conn.go:Recv", "redis/pool.go:ExecCommand"]}
{"id": "C128", "title": "List entries are independent double-ended lists", "statement": "After any sequence of AppendTail, AppendHead and assignments of one entry to another, every entry holds what a list of its own would hold. It fails when an entry was copied and both are appended to at the tail: they can share an array with room to spare, and the later call overwrites the element of the earlier. It holds if no entry that was copied, or is a copy, is appended to at the tail before it was appended to at the head.", "quantifier": "all programs over any number of entries, all capacities append may choose", "why_tests_cant": "Whether two entries share an array depends on the capacities the runtime chose; tests see one runtime and short lists.", "anchors": ["cache/cachelist.go:AppendTail", "cache/cachelist.go:AppendHead", "cache/cachelist.go:ListEntry"]}
{"id": "C129", "title": "Snapshots with data of modules are loaded", "statement": "A snapshot in which Redis modules saved auxiliary data is loaded like the same snapshot without these data. Load accepts a record of a module only if it holds no value: a file of otherwise supported records is loaded if and only if no module saved anything, and then the commands are those of the file without the module records. The first record with a value ends loading with an error, after the commands of the keys before it were sent.", "quantifier": "all files of supported records and module records, with any module ids and any values, all blocks in which no plain string is cut, all orders of visiting maps", "why_tests_cant": "Snapshots with data of modules need a server with modules; a module that saves nothing looks fine.", "anchors": ["redis/replication.go:Load", "redis/rdb/rdb.go:LoadLen", "redis/rdb/rdb.go:OpCodeModuleAux"]}
{"id": "C130", "title": "The repository's other tests pass", "statement": "With a master on 127.0.0.1:6379, the tests of xxcache_test.go, redis_test.go, lzf_test.go and zipmap_test.go pass. TestClient_Get never passes, whatever the master, its snapshot and its answer to Set: when New and Set report no error the test panics in Get, so the test run ends there; otherwise it fails or panics before. TestNew of xxcache_test.go passes just if New reports no error. TestNew of redis_test.go passes without a server, and with a server whose answer arrives whole. The calls of TestCompress, TestDeCompress and TestZipMap_Set do not panic; DeCompress restores the text whatever the uninitialised hash table of the compressor holds.", "quantifier": "all masters, snapshots and answers, all contents of the hash table and of the memory behind a string or slice", "why_tests_cant": "That a test never passes, or passes whatever uninitialised memory holds, is a statement about all runs of it.", "anchors": ["xxcache_test.go:TestNew", "xxcache_test.go:TestClient_Get", "redis/redis_test.go:TestNew", "redis/lzf/lzf_test.go:TestDeCompress", "redis/zipmap/zipmap_test.go:TestZipMap_Set", "xxcache.go:New", "command.go:Client.Get"]}
{"id": "C131", "title": "A message says its own kind", "statement": "What Protocol says about a message is the first byte of the message as it is sent, and the first byte of what was read when it was received; a first byte that is none of the five kinds is refused as unknown.", "quantifier": "all messages, all streams and ways in which they are cut", "why_tests_cant": "The five cases can be tested one by one, but not that no other byte is ever accepted, on any stream.", "anchors": ["redis/protocol.go:Protocol", "redis/conn.go:readProtocol", "redis/conn.go:Recv"]}
{"id": "C132", "title": "readBulkString returns the announced text", "statement": "readBulkString returns the n bytes that follow on the connection, or an error. It is readBulk without the end of line: it returns the payload if and only if all bytes that have not arrived yet are zeros; on an empty stream it returns n zeros and no error.", "quantifier": "all announced lengths, payloads and ways in which the stream is cut", "why_tests_cant": "In a test the payload arrives in one piece.", "anchors": ["redis/conn.go:readBulkString", "redis/conn.go:discardEof"]}
{"id": "C133", "title": "A call is given up when its context is done", "statement": "A caller of Pool.Get whose context is done gets no connection and returns with an error. A call with a done context may be given an idle connection; a caller at the mutex after a failed dial waits for ever; cancelling frees a blocked caller exactly if it waits at the second select; a caller inside Get whose context is done can return by its own moves exactly unless it is at the mutex while that is held.", "quantifier": "all pool sizes, numbers of callers, schedules and times at which contexts are cancelled", "why_tests_cant": "Which of two ready branches a select takes, and where a caller is when it is cancelled, depends on the schedule.", "anchors": ["redis/pool.go:Get", "redis/pool.go:ExecCommand", "redis/pool.go:Exec"]}
{"id": "C134", "title": "Stop ends the following of the master", "statement": "After Stop the goroutines that follow the master come to rest: nothing more is read, applied or acknowledged. Stop does nothing: after it exactly the runs are possible that are possible without it.", "quantifier": "all streams, snapshots and schedules, Stop at any time", "why_tests_cant": "A test can look for a while; that exactly the same runs remain possible is a statement about all continuations.", "anchors": ["xxcache.go:Stop", "redis/replication.go:Stop", "xxcache.go:handleReplication"]}
{"id": "C135", "title": "Errors in following the master are logged", "statement": "Every error of the goroutines that follow the master appears in the log. All errors are taken from the channel, but they are logged at level warn: they appear if and only if the level in force is at least warn when they are taken. With LogLevel left out (0, panic) none appears; and the level is global, so a second client can silence the first.", "quantifier": "all streams, schedules and levels, several clients", "why_tests_cant": "The level in force depends on when another client is made.", "anchors": ["xxcache.go:handleReplication", "xxcache.go:New"]}
{"id": "C136", "title": "With Cron on, a key is kept until its deadline", "statement": "While Cron runs, a key without deadline, or whose deadline has not come, is still there. Every tick empties the whole cache: after it the cache is as if only the calls since then had been made, so a key is gone at the latest when two seconds and the delay of the tick have passed since it was written, whatever its deadline.", "quantifier": "all histories, keys, deadlines and delays of the ticker", "why_tests_cant": "The claim is about all histories in which the ticks come at least every so often.", "anchors": ["cache/cache.go:Cron", "cache/cachecron.go:cronExpire"]}
{"id": "C137", "title": "Every connection has run the open handlers", "statement": "Every connection a pool hands out has run all open handlers of the pool, each once, in the order of adding. A connection has run, in order, those that had been added when it was dialled: it has run all if and only if none was added since. For the pool of a remote client, whose handlers are added first, the property holds.", "quantifier": "all pool sizes, numbers of callers, schedules and times at which handlers are added", "why_tests_cant": "When a connection was dialled depends on the schedule of all callers before.", "anchors": ["redis/pool.go:AddConnOpenHandler", "redis/pool.go:create", "redis/pool.go:Get", "redis/redis.go:NewClient"]}
{"id": "C138", "title": "New goes where its options say", "statement": "New connects to the master its options name, sends it a PING and then a SYNC and nothing else, saves the snapshot in the file the options name and reads that file back. Where no master is named it is 127.0.0.1:6379, where no file is named it is temp.rdb. It stops at the first step that fails and opens nothing else. The remote client, which exists if and only if New reports no error, connects to the same master.", "quantifier": "all options, all outcomes of the network and the file system, all bytes the master sends", "why_tests_cant": "The steps taken depend on where the network, the file system or the master fails; a test sees only the failures it can provoke.", "anchors": ["xxcache.go:New", "xxcache.go:prepareOption", "redis/replication.go:SyncWithRedis", "redis/replication.go:ping", "redis/replication.go:sync", "redis/replication.go:Load"]}
{"id": "C139", "title": "A damaged snapshot makes New fail, not the process", "statement": "Whatever a master answers to the PING and the SYNC of New, and however the snapshot is damaged or cut off, New returns - with an error if something is wrong. Load returns an error for a file it cannot read. Neither panics, and neither ends the process that called it.", "quantifier": "all bytes the master sends in all fragmentations, all snapshot files in all blocks, all options, all outcomes of the network and the file system", "why_tests_cant": "Which damage is fatal depends on where in which encoding it lies; a test cuts or changes a few files at a few places.", "anchors": ["redis/rdb/rdb.go:LoadLen", "redis/rdb/rdb.go:LoadString", "redis/intset/intset.go:Load", "redis/ziplist/ziplist.go:Load", "redis/zipmap/zipmap.go:Load", "redis/replication.go:Load", "redis/replication.go:ping", "xxcache.go:New"]}
