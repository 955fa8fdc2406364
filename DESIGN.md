# Formal model of liujiangwei/xxcache in Lean 4 — design

The code (Go, plus the C library liblzf it vendors) is read as text only; nothing is run.
All Lean sources are under `lean/Verif`. Every definition of the model cites the file and
lines of `/repo` it models. Property theorems live in files named `*/Props.lean` (or
`Props*.lean`), apart from models (`Model.lean`) and helper lemmas (`Lemmas.lean`).

## Conventions

* Go strings and byte slices: `List UInt8`. Go `int`/`int64`: `Int64` (64-bit platform).
* `(value, error)` results and panics: `GoRes α = ok a | err e | panic`. In the code every
  value returned beside a non-nil error is the zero value, so nothing is lost.
* A `sync.Map` is a partial function (`Key → Option Val`) or, where counting or listing
  matters (hash fields), an association list without duplicate keys.
* `time.Now()` is an explicit argument `now : Int` (nanoseconds) of every call; one reading per
  call. Histories carry non-decreasing readings. `time.Time` arithmetic does not overflow;
  `time.Duration` arithmetic does, and is `Int64`.
* `range` over a Go map: the model takes the pairs as a list, in whichever order the
  runtime picked; theorems quantify over all permutations.
* Goroutines: a state machine whose steps are the atomic actions (map operation, lock,
  channel operation); a theorem about "all schedules" is an induction over step lists.
* `bufio.Reader`: buffered bytes + list of chunks still to be delivered by the OS.
* strconv: `Atoi`, `Itoa`, `ParseFloat`, `FormatFloat(…,'f',-1,64)` and float64 addition are
  modelled concretely (exact arithmetic on numerals, round-to-nearest-even); this models
  the documented behaviour of Go's standard library, not its source.

## False properties

Several properties of the list are false of the code as it stands. For those the model
stays faithful to the code, the file contains a theorem `…_violated` that proves the
negation from a concrete reachable witness, and theorem(s) `…_partial` that prove the
property on the exact region where it holds. MANIFEST status is then `partial`.

## Modules and plan per property

| Module | Models | Properties |
|---|---|---|
| `Base` | byte strings, results | – |
| `Strconv` | Atoi/Itoa | C80 |
| `F64`, `FloatText` | float64 value set, rounding, add, ParseFloat/FormatFloat | C81, C82, C02 |
| `Cache/{Model,Hist,Lemmas,Frame,Congr,Inv,Props*}` | cache/*.go strings, TTL, db, cron | C01–C29 |
| `Cache/HashModel` | cache/cachehash.go | C28–C39, C96 |
| `Conc/{Machine,Order,CacheProg,Lin,PropsStale,PropsLost,PropsLostMany,PropsStaleExact,PropsTorn,PropsWriters,PropsMomentWriter,PropsMomentWriters}` | RWMutex + atomic map steps, schedules, acquisition order, linearization | C40–C44, C103 |
| `Conc/HashProg` | the unlocked hash calls HSet/HGet/HLen and the slot map under concurrent callers | C43, C44 |
| `Conc/{Full,FullRules,FullSafe,FullCalls,FullProg}` | every call (strings, deadlines, hashes behind pointers, sweep) as atomic steps; rely/guarantee proof that each call, undisturbed on its keys, is one sequential call | C102, C103 |
| `Conc/{Reorder,Locks,FullLin,PropsFull,PropsRealTime}` | reordering of calls without conflict, lock invariant, linearization of conflict-free runs | C102, C103 |
| `Conc/{Tame,Isolate,PropsIsolate}` | calls that stay away from a set of keys, whatever races they take part in; linearization of the goroutines on those keys | C104 |
| `Conc/{Source,PropsSource}` | ghost owner for every hash address; what may stand where, kept by every call under any interference | C105 |
| `Client/{Many,ManyInv,ManyLive,PropsMany,PropsManyExact}` | pool, connections, readers and server in one machine, for any number of goroutines; automata for what a connection and a goroutine may show; work left | C106 |
| `Conc/Progress` | deadlock freedom and termination for any machine of this kind | C101 |
| `Resp/{Bufio,Model,Lemmas,Props,PropsExact,PropsJoin}` | bufio.Reader, protocol.go, conn.go, replication.go `ReadWithWriter` | C45–C50 |
| `Client/{Cmd,PropsCmd,PropsCmdExact,PropsKind}` | redis.go, command.go, ExecCommand | C47, C51, C52, C120 |
| `Client/{Pool,PropsPool}` | pool.go | C53–C56, C83 |
| `Lzf/{Model,Spec,Lemmas,Comp,Props,PropsSize,PropsRoom}` | lzf_c.c, lzf_d.c, lzf.go | C57–C61, C84 |
| `Suite/{Model,Lemmas,Props,PropsAll}` | cache/cachehash_test.go, cache/cachestring_test.go (the tests themselves, as programs over the cache model) | C123 |
| `Rdb/{Packed,PackedSpec,PackedLemmas,PropsPacked}` | intset.go, ziplist.go, zipmap.go | C70–C73 |
| `Rdb/{Model,Pieces,Spec,Lemmas,Props,Damage,PropsLoad}` | rdb.go, replication.go `Load` | C62–C69 |
| `Repl/{Model,Spec,Props}` | message.go, New, SyncWithRedis, Client.Get | C74, C75, C78 |
| `Repl/{PropsMachine,PropsHandle,PropsEnd}` | goroutines of handleReplication, Load, WaitForMessage, Ack | C76, C77, C79, C85–C89 |
| `Cache/{Ref,RefSim,PropsRef,PropsRefExact}` | reference semantics of the same commands in Redis, simulation relation | C90 |
| `Cache/{PropsExact,PropsExactHash,PropsExact2}` | exact conditions (iff) or exact answers for the cache properties that fail somewhere | C01–C03, C05–C10, C12, C13, C15, C18, C19, C21, C24, C26–C31, C34, C35, C37 |
| `Cache/{Rename,Origin,PropsMeta}` | renaming and clock shift as a simulation; origin of stored values; interleavings | C97–C100 |
| `Client/{Session,PropsSession,PropsRemote,PropsSame,PropsSelect,PropsCuts,PropsSeen}` | NewClient, create, Get/Put/ExecCommand as one goroutine sees them, SendAndWaitReply, against a reference server | C91–C95 |
| `Resp/{Writer,PropsWriter}` | bufio.Writer with an error that stays, `Send`, `ReadWithWriter` onto a file that may fail | C107, C108 |
| `Repl/Disk` | SyncWithRedis and New onto a file that may fail | C108 |
| `Repl/Ack` | `ack`, `Ack`, `repl.Offset`, `repl.Id` as left by `Load` | C109 |
| `Whole/Model`, `Whole/Props`, `Whole/PropsAll` | `Client.Set`, `Client.Get`: remote client of many goroutines, master and replication goroutines as one machine; what the master passes on is a parameter | C110, C111, C112 |
| `FloatShortest` | specification of the shortest decimal text; the text of a float is it | C81 |
| `FloatGrammar`, `FloatGrammarLemmas`, `PropsLiteral` | grammar of numeric literals as a specification; the scanner accepts it and nothing else | C113 |
| Conc/PropsAlone | a goroutine that runs alone: the step programs of Conc/CacheProg and Conc/HashProg are the calls of the sequential model | C102_alone, C43_alone |
| Conc/Race, RaceProofs, RaceSound, RaceExact, RaceNX | the machine of all calls (Conc/Full) with a record of the plain variables each step reads or writes: the fields `dataDict` and `expiresDict` of the cache and `length` of each hash entry | C114 |
| Conc/PropsRace, PropsRaceLists, PropsRaceHash, PropsRaceNew, PropsRaceNX | the theorems of C114 | C114 |
| `Cache/PropsWidths` | the counter calls on stored integers of every width of the type switches (also those no call stores) | C15, C34, C35 |
| Client/PoolRace, PropsPoolRace | the callers of `ExecCommand`, `Exec` and `Close` with a record of what each step reads or writes of `size` and the mutex, the copies made by value receivers included | C115 |
| Lzf/Run, PropsRun | the compressor on `n` equal bytes, step by step | C116 |
| `Lzf/PropsExact`, `Rdb/{PropsExact,PropsExact2,PropsEnds,PropsStep,PropsZipmap,PropsRight,PropsDeadline,PropsOne}`, `Repl/PropsExact` | exact conditions (iff) for the codec, loader and connection properties that fail somewhere | C61–C64, C66, C67, C69–C71, C73, C86–C88, C125 |
| `Repl/PropsStuck` | exactly when the handler can wait for itself | C77 |
| `Repl/Race`, `Repl/PropsRace` | the replication machine with a record of every access to a plain variable, `go` statement, send and receive; the happens-before order of the Go memory model | C117 |
| `Repl/Files`, `Repl/PropsFiles` | any number of calls of `New` and the snapshot files they create, write and read piece by piece | C118 |
| `Repl/PropsFailed` | the goroutines after `Load` failed | C119 |
| `Repl/Again`, `Repl/PropsAgain` | `New` with a count of open descriptors and goroutines, called again and again | C122 |
| `Repl/Wire`, `Repl/PropsWire` | the receiver in front of arbitrary bytes: the loop of `WaitForMessage` when the last `Recv` panics | C121 |
| `Cache/ListModel` | the list calls (all panic) | C29 |
| `Cache/{EntryModel,PropsEntry,PropsEntryExact}` | cache/cachelist.go `ListEntry.AppendTail`, `AppendHead` on Go slices that share arrays | C128 |
| `Rdb/{PackedRest,PropsPackedRest}` | zipmap.go `Get`, `Del`, `Len` (method and function), `BlobLen`, `Iterate`, `Next`; ziplist.go `Length` | C124–C126 |
| `Suite/PropsOther` | xxcache_test.go, redis_test.go, lzf_test.go, zipmap_test.go | C130 |
| `Resp/{Rest,PropsRest}` | protocol.go `Protocol`; conn.go `readProtocol`, `readBulkString`, `discardEof` | C131, C132 |
| `Client/{Ctx,PropsCtx}` | the pool with a context per caller that may be done at any time | C133 |
| `Client/{Handlers,PropsHandlers}` | the pool with `AddConnOpenHandler` at any time and a record of the handlers each connection ran | C137 |
| `Repl/{Places,PropsPlaces}` | `New`, `SyncWithRedis`, `ping`, `sync` with a record of what they ask of the network and the file system | C138 |
| `Rdb/{PropsFault,PropsIntact}`, `Repl/PropsFault` | where loading and `New` end the process | C139 |
| `Repl/{Stop,PropsStop}` | `Stop`; what is logged at which level | C134, C135 |
| `Cache/PropsCron` | the ticks of `Cron` as part of a history | C136 |
| `Rdb/PropsWhole` | replication.go `Load` (model in `Rdb/Model`) | C65 exactly |
| `Rdb/PropsModule` | replication.go `Load`, `OpCodeModuleAux` (model in `Rdb/Model`) | C129 |
| `Client/{Options,PropsOptions}` | redis.go `Option` with all its fields, `NewClient`; conn.go `WithTimeout`, `WithReadTimeout`, `WithWriteTimeout`, `Recv` | C127 |

How each is proved:

* C01 normal form + history-free statement `get (set s k v) = norm v`; violated for numeric text and for a left-over deadline; partial for plain text / canonical integers, key without deadline.
* C02 case analysis on Atoi/ParseFloat results with C80/C81; violated by "-0.0"; partial otherwise.
* C03 induction over the history, using per-call frame lemmas. C04 the frame lemmas themselves.
* C05–C07 direct computation on the deadline map, quantified over read times; C06 overflow witness, C07 violated.
* C08, C18, C24 violated on expired-but-unswept keys; partial on states where the key is not stale.
* C09–C14 refinement of the byte loops to list functions (`take/drop/append`) by induction.
* C15–C17, C19 64-bit arithmetic; C16 by induction over the call list.
* C20, C21, C36 induction over the pair list + permutation invariance.
* C22–C29 direct; C26, C27, C29 violated, with exact description of what happens instead.
* C30–C39, C96 per-field lemmas on the association list; C31 invariant by induction over histories.
* C40–C44 small-step machine; simulation of any schedule by the acquisition order; C42–C44 violated, explicit schedules. C42 with overlaps (`Conc/PropsStale`): an invariant (`Inv42`): nobody can see the key (`Gone`) is kept by every program (`Keep`), programs of calls that do not name the key leave it (`Leaves`), and the watched call ends well if nobody else touches the key (`Fine`). C43 and C44 for all keys and values (`Conc/PropsLost`): schedules in which a goroutine is left alone for a while are runs of its program (`steps_alone`, `steps_part`). `C42_exact` joins the two. `C44_exact` (`Conc/PropsTorn`): `Looks n p` says a program changes nothing and ends well if run while the MSet goes on from pair n; with the count of written pairs it is an invariant. The other way the schedule is built slot by slot. `C44_writers_exact` (`Conc/PropsWriters`) does the same with any number of goroutines calling Set and MSet: the invariant holds the list of writes so far, each with its goroutine, and what each goroutine has still to write (`RemIs`); in the schedule that is built, a Set is run to its end so the lock is free between writes. `C103_writer_exact` (`Conc/PropsMomentWriter`) says from it when the growing parts are always one part (`one_part`, by induction on the slots). `C103_writers_exact` does so for any number of goroutines, goroutine by goroutine: a slot shows only the writes of the one goroutine that writes its key (`slot_own`).
* C101 lock invariant: a mutex that is held is held by a call in progress, which can step; each thread's steps are well-founded (program tree, then calls left), so finitely many threads stop; a scheduler that does not idle then finishes all calls. C102 `Safe` is a rely/guarantee judgement on programs; every call satisfies it with the sequential call as postcondition (`safe_prog`); induction over the run keeps a list of completed calls with times; calls without conflict may be swapped, which sorts the list by time (`isort`, an insertion sort that is stable); the invariant also carries the clock readings of call and return of each call in the log (`Clocked`), so `C102_real_time` places every effect between them (the reading at the call is taken when the lock is granted, which is no earlier than the call). C103 violated by the clock passing a deadline between two reads; for a goroutine that is alone its runs are exactly `Lone` (program and clock only), in which each key is read at its own time, in order (`AtTimes`); these times can be made one just when the deadlines fall along the list (`C103_exact`). C104 `Tame` says a program leaves the keys `U`, their deadlines and the hashes they point to alone even when it is disturbed; every call on other keys is tame, so only the goroutines on `U` matter and the invariant of C102 holds for them. C105 `Traced` says a program, disturbed by others that do the same, puts values only where they may stand and shows only such values. C106 invariant: the events of every connection and every goroutine are a path of a small automaton, and the state of the system is the one the path ends in; the claims are read off the paths. Every move but time and loss lowers a weight of at most 13 per call; a case analysis over the pool shows that somebody can always move. Simplified: open handlers run in one step, a request on its way is one slot per connection, a reply not read when its connection is lost arrives whole or not at all.
* C45–C49 mutual induction over messages; C46 violated for bulk strings, proved for the rest; C49 violated by a negative length, and proved otherwise. Which cuts do harm (`C46_result`, `C46_exact`, `C46_exact_place`) and which headers panic (`C49_exact`) is characterised in `Resp/PropsExact.lean` by following one `Read`.
* C50 induction over payload, every chunking.
* C51, C52 case analysis per command; several violated, exactly which in `C51_exact`, `C52_exact`.
* C120 `Proper` lists the documented kinds of replies per command; case analysis per method.
* C53–C56 invariant over all schedules (`C55_exact` in `Client/PropsPoolExact`; `C54_exact`, `C83_exact` in `Client/PropsPoolRoom`, `C56_exact` in `Client/PropsPoolClose`); C55, C56, C83 violated (stuck-state theorems; closing and waiting callers).
* C57–C60 token semantics as the independent specification; compressor invariant "tokens emitted so far denote the input consumed so far"; bounds-checked memory accesses.
* C61 violated; partial when the compressor succeeded.
* C84 exactly: only literal runs denote text in which no three bytes come back within 8192 (`fresh_lits`), and such text exists at every length (`digits`). The room exactly: `CInv.small` bounds what is written by the position, a match gains one byte on it (`onMatch_ok`), and text that is copied up to its last three bytes and found there (`worst`) needs all of it.
* C70–C73 encoders of the packed containers written from the Redis format as specification, decode∘encode = id on the correct region, violated elsewhere.
* C72 exactly (`Rdb/PropsZipmap`): counting bytes. What the loader reads as entries, with the extra byte behind each, takes more bytes than the map has, so two or more entries without unused bytes never come out whole.
* C68 exactly (`Rdb/PropsRight`): for sorted sets a counting argument: if every member with its score is the swap of some other, the swap is a bijection of the set.
* C62–C69 `Rdb/Spec` is an encoder of whole snapshot files, their meaning (`meaning`), the commands that recreate a value (`recreate`) and a small reference server (`exec`). `Rdb/Pieces` describes a file as it is read in blocks: `Holds ps rest r` says that the reader is about to deliver the encoded pieces and that no plain string crosses a block (`holds_small`, `holds_tiny`: files up to 4096 bytes, and files without longer plain strings, satisfy it). Decode∘encode = id by induction over the records; violated elsewhere. C67: `Rdb/Damage` proves, compositionally for every reading operation, that it ends, never puts bytes back, and that on a file cut off early it fails, agrees, or exhausts the file.
* C74 case analysis on messages; C75 induction over streams, last-write specification `lastVal`; `C74_exact`, `C75_exact`, `C76_exact` in `Repl/PropsHandle`.
* C76, C77, C88, C89 step machine of the four goroutines with the capacities of both channels; invariant `Inv` (FIFO, cache = fold over what was taken), `Live` (never stuck while commands are supported), `Stuck` is closed under all steps.
* C90 independent reference semantics `Ref.exec` (typed values, per-key deadline, checked 64-bit sums); forward simulation `Rel` between the cache and the reference; equality of all answers for histories that avoid the situations listed in `Ref.Safe`; one diverging history per excluded situation (`C90_violated`). `C90_exact` and `C90_run_exact` (`Cache/PropsRefExact`): a call by call iff (`Ref.Alike`), by showing that a cache that looks like the reference under safe calls is in the relation (`sim_of_looks`).
* C91–C95 a session model: a reference server (logins, databases, `Ref.exec`, requests decoded by `specCommand`), the client's connections with their readers, and a network that cuts each reply by an arbitrary function. C91 by the reader lemmas (`aligned_reads`, `streamed_reads`) with the invariant that nothing is left over; the forged reply is constructed for every message; `C91_exact`, `C91_run_exact` (`Client/PropsCuts`) from `C46_message_exact` (`Resp/PropsJoin`, which follows the reader through nested messages). C92 closed sets of dead and of locked pools (`C92_sessions`, `C92_exact` in `Client/PropsKeep`). C93 invariant over all events; `C93_exact` (`Client/PropsSelect`) by rotating the pool call by call. C94 = C91 + case analysis of the methods (`C94_seen_partial`, `C94_exact` in `Client/PropsSeen`: every method, what it shows and what the server keeps); C95 = C94 + C90; `C95_exact` (`Client/PropsSame`) from `C90_exact`, since `Get` and `DecrBy 0` tell apart all states the remote methods can leave. Simplified: a call that would wait for ever for bytes shows as an end-of-stream error; a lost connection loses what was undelivered; the server serves calls in a global order and has 16 databases.
* C97, C98 one simulation `Renaming.Sim` between a run and the run with names replaced and clock moved, closed under every call. C99 `exec_puts` says what one call can put under a key; induction over the history. C100 frame and congruence lemmas of C04, induction over the interleaving.
* C78 the client holds the zero cache (`none`): `Get` panics.
* C79 C85 + C65 + the machine: from the bytes of the master to `Get`, every schedule; progress by a decreasing measure (`work`).
* C85–C87 reader lemmas of `Resp` for the ping reply and `ReadWithWriter`.
* C106_exact: the invariant of the machine needs joinable replies only on connections that are up (`inv_clear`). If one could come that cannot be joined, take the first: the server's move and the reader's move after it show a call that misread or a connection left astray (`exchange_cases`).
* C107 `Adds` says what an operation of bufio.Writer does to the bytes below and in the buffer; induction over the requests; the server reads with `specCommand` of C47, which is monotone, so a part of a request is no request. C108 exact description of which writes are checked (all but the last), by induction over the payload; a truncated file is then rejected by loading (C67).
* C109: `load_position` follows identity and position through the records of a snapshot; an invariant over the machine with ticks of `Ack` gives the acknowledgements of every schedule; `C109_violated` is a run with one applied command and an acknowledgement that ignores it.
* C110: a run of the whole machine projects to a run of `Client/Many` and one of `Repl/Model` fed with the assignments the master carried out (`split`, `feed_steps`); the store of the master after its log (`served_store`) and the cache of the replica after what it took are both the last assignments. `C110_violated` is a run in which `Set` returned and the assignment is still on its way.
* C79, C89, C110, C111, C112 without restriction (`Repl/PropsAll.lean`, `Whole/PropsAll.lean`): the handler changes the cache by assignments only (`handle_any`, from C74_exact), so the cache after any messages is that of the assignments among them (`applied_any`). Hence `C89_exact`, `C79_exact`, `C110_exact`, `C111_exact`, `C112_exact` hold for arbitrary snapshots, streams, methods and ways of passing on (the parameter `pass` of the machine; `passAll` is a master that passes on every write). `C110_violated_others` turns this against C110: what any method but `Set` writes is never shown.
* C111 (`Whole/Props.lean`): the README's fall-back to Redis does not exist in `Client.Get`; `C111_violated` exhibits the run in which the master holds the value and `Get` reports a missing key. `C111_caught_up_partial` (from C110) shows that a caught-up replica never misses a key, so the fall-back only matters before that.
* C112 (`Whole/Props.lean`): the connection of the replica may break at any step, with any part of what was on its way lost (`Step.cut`, `Step.cutEarly`). `C112_lost_for_good` proves for every run and every continuation that nothing set after the loss is ever shown; `C112_settled` that no `Get` ever changes once what had arrived was taken; `C112_violated` is the refutation in every continuation of one run. While the connection stands, C110 applies.
* C81 (`FloatShortest.lean`): `IsShortest` says fewest digits, then closest, then even; the numbers that read as a float form an interval (`readsBack_convex`), so the search over multiples of powers of ten finds it (`shortestAux_spec`, `shortest_core`).
* C113: `Lit` and `Lit.Valid` are the grammar, `Lit.Denotes` the nearest float of the exact value. Forward: the scanner over the digits of a literal (`scanMant_tail`, `readExp_fwd`, `usScan_tail`). Backward: what the scanner consumed is cut into digits by the underscore check (`usScan_inv`, `lit_of_scan`). `Lit.mag_far`: from exponent 10000 on the cut-off exponent gives the same result for up to 1000 digits.
* C114: a data race is two steps of different goroutines, one right after the other, that touch the same plain variable, one writing (for sequentially consistent executions of lock-synchronised programs this is the usual equivalent of an unordered pair; nothing in between means nothing that could order them). `Clash` says by names and arguments which calls must not overlap. `C114_no_race_partial`: no clash between goroutines, no race (invariant: every length touched belongs to the key the call names; the lock keeps `Flush` from the locked calls). `C114_pair_exact`: for two goroutines with one call each, a race is possible exactly if the calls clash, but for two HSetNX of one field. `C114_violated`, `C114_flush_violated`: the races. `C114_lists_exact`, `C114_first_violated`, `C114_hash_lists_exact`, `C114_new_lists_exact`: for lists of calls (a goroutine can always make its next call alone while the lock is free, `call_alone`; a call that panics is recovered by its caller and the goroutine goes on). `C114_same_machine`: the recording machine has the runs of Conc/Full. Not counted: the assignment of `length` in `newHash` (before the entry is published), the memory inside sync.Map and RWMutex. A call that can never come to the size in the runs considered (of a hash that stays absent, or HSetNX of a field that another goroutine makes) takes the same steps as HStrLen; the program with HStrLen in its place has the same race (`race_both`, `race_nx`). In `race_nx` the program depends on who makes each field in the run, which is known only when it is made: the invariant `Follows` keeps the twin of every choice that agrees with the fields made so far. A field that is absent stays absent while no call made sets it (`Part`), so the first HSetNX of it comes to the size (`race_missing`).
* C15, C34 by width: the number a stored integer stands for and the range of its type are specified apart from the arithmetic; sums are compared in `Int`.
* C115: races are defined as in C114. `C115_exact` and `C115_size_exact` say for every pool size and number of goroutines whether a race can happen; the direction without race uses the invariants of the pool machine, to which the machine projects (`erase_step`). `C115_violated`: two goroutines on any pool. `C115_warm_partial`: a full pool with enough connections is only read.
* C116: the first two bytes are literals whatever the table holds (position 0 is never a match); from then on the table entry of the only trigram is the byte before, so every turn writes one back reference of full length; induction over the main loop.
* C88 exactly: while New loads, only the handler reports errors, so the reports in the channel and in hand are at most the refused messages it took (`Early`). Without a panic and with fewer than two early refusals some goroutine can always step and a weight falls (`New_ends`); otherwise the schedule that hangs is built (`run_prefix`).
* C77 exactly: an invariant records which messages were taken, that before New returns only refused messages have put errors into the channel, and how far the handler must have come when New returned (`Past`); for the converse the schedules are built from single messages (`At`, `at_run`).
* C117: every step of the replication machine is labelled with what it reads and writes (`LStep`; without the labels it is exactly `Repl.Step`: `LStep.step`, `LStep.of_step`). An invariant over the whole history (`TInv`) says: what `New` wrote first lies before the start of the handler; `Offset` is written only before `go repl.Ack()`; every message is written once, immediately before it is sent, and read only after it was received. From it, any two conflicting accesses are ordered (`HB`). Not used: the order that the error channel and the capacity of a channel give, so the claim does not depend on them. The cache's own entries, logrus and the Go runtime are outside.
* C118: a file system (name to contents) and one program counter per call; writing at an offset behind the end leaves zeros, opening empties the file. Invariant `Good`: a busy call finds in its file exactly what it wrote. For the refutation the schedule is built for any two snapshots (`C118_violated_any`) and instantiated with default options. `C118_exact`: a company that empties the file between writing and reading is built for the one direction; in the other the call is `Good` when nobody else opens its file.
* C119: the machine of C76 after the step in which `Load` fails; invariant `Over` (only the handler can move) and a measure that each of its steps lowers. The refutation starts from the bytes the master sends.
* C122: `newR` is `New` with a limit on open descriptors; it is proved to be the `new` of the other theorems in an outside world in which nothing can be opened beyond the limit (`newR_eq`), together with what it leaves. Assumed of Go: a connection or file nothing refers to is closed when garbage is collected, and a running goroutine refers to the fields of its arguments. Descriptors of the program itself and of the remote client are left out.
* C123: a test is a list of calls, each with the condition under which the test goes on and whether a failure is `t.Fatal` or `t.Fail`. `t.FailNow` semantics: `Fatal` ends the test, and the calls after it (also the clean-up) are not made. Each call has a clock reading of its own; `time.Sleep` has no effect but to separate readings. Untyped constants such as `1.1` are the nearest float64. Conditions are transcribed by hand from the `if` around each call.
* C124–C126: the stubs are transcribed; what they should answer is stated from the list of `Set` calls. `zipmap.Len` is compared with the specified entry format (`encZmEnt`) and with what `Set` adds; its sum is a natural number. The header of a packed list is specified apart (`zlHeader`).
* C127: `newClient` is a function of all options, so that it ignores four of them is a statement about it. Nothing answered (`Mute`) is kept by every step of the machine of C106 but an answer of the server and the loss of a connection. `Returns` says that no later input changes the result of `Recv`. Writing is left out of `TimedConn`; the simplifications of C106 apply (login and select when a connection is opened are answered in one step).
* C128: a slice is an array, a length and a capacity, and begins at the start of its array; `append` writes in place when the capacity allows it and otherwise takes a new array with any room to spare. `Inv`: an entry that was not copied shares its array with no other. C128_exact: the run with room to spare simulates every other (`Sim`): entries that share an array in any run share one in it, so a call that does no harm there does none anywhere.
* C65 exactly (`Rdb/PropsWhole`): what was sent stays sent (`loadLoop_out`), so the first wrong command decides; each kind of value is walked from the front, and a string that is misread (`loadString_wrong`) is empty, a panic or a non-negative number, none of which can pass for the right one.
* C129: the values of modules (opcodes 1 to 5) are part of the specification of files only; `Load` never reads one.
* C130: a test is a function of what its calls come to; `New` is its sequential part (`Repl/Model`), `Set` may come to anything.
* C132: `readBulkString` is compared with `readBulk`, whose chunk by chunk reading is in C46.
* C133: the moves of the pool machine, each guarded by what the caller's context allows (`onDone`); `Own` says that only the caller itself moves.
* C134: a machine with a `Stop` step is shown to have exactly the runs of the machine of C76. C135: one more counter per error: raised, taken, shown.
* C136: C27 says a tick empties the cache; the last tick before a reading is found by `cut_last`.
* C137: `HInv` (what ran is a prefix of what there is) and `run_keeps` (nothing runs later).
* C138: the record is a function of how far `New` comes (`reached`); case analysis along the steps.
* C139: `panic_andThen` says when a sequence panics; with it each reading operation panics if and only if what the file goes on with is of a stated kind (`CutLen`, `LzfFault`, `StrFault` on the undivided bytes; `ObjFault`, `RecFault` by type of record), and loading does if whole records lead to such a place (`Trace`).
* Functions without a definition of their own: constructors and accessors (`NewConn`, `Connect`, `NewBaseCommand`, `Error`, `Result`, `IncrBy` of the cache, `newIterator`), which are inlined where they are called; `pSync`, which is empty; `Close` of a connection, which only `Pool.Close` calls (the list `closed` of the pool machine); `LoadOpCode` and `decode`, which are part of the loops that call them; cache/main/main.go, which is a demonstration program.
* C121: every stream of bytes is a list of messages and a rest that is none (`delivers_exists`, `delivers_unique`); if reading the rest panics, so does the receiver (`WStep`). Up to that panic every execution is one of the machine of C76 (`unlift`), so its invariants apply; for the converse the schedules of C77 are used. Which commands are deadly is specified apart from the handler (`Deadly`).
* C71 exactly: a list that comes out right is walked from the front (`zlLoop_right`): nothing the loader gives back is longer than 255 bytes (`entry_short`), and the decimal text of a number never equals the first bytes of its binary form (`text_ne_raw`: its last byte is a digit, where the binary form has 0 or 255 or a number below 10). What follows a 64 bit integer (`Rdb/PropsStep`): the loader goes on at its sixth byte (`zlLoop_int64`), which for a small negative number is the end marker. C64 exactly: the reader is described by its blocks (`segs`). C66 exactly: the loop with arbitrary times (`loop_any`).
* Simplified: the clock of `lastPing` and log output are dropped; `Ack` succeeds or fails nondeterministically; `Recv` delivers a list of messages and then fails (its bytes are in C46/C48; that it may end with a panic instead is in C121); reading the snapshot from the file system sees the bytes written.

## Trusted base

Lean's kernel; the axioms `propext`, `Classical.choice`, `Quot.sound` (checked with
`#print axioms`, see `Verif/Axioms.lean`); the reading of the Go/C code recorded in the
citations; the documented behaviour of the Go standard library pieces named above.

Not in the concurrency machines: in `Conc/CacheProg` and `Conc/HashProg` (C40–C44) the sweep and some hash
calls; `Conc/Full` has all calls of the cache. There the sweep is one step under the lock, and
creating a hash entry and publishing it is one step. The list calls have no body in the source and panic.

In `Load` (`Rdb/Model`), sending to the message channel never blocks, `log.Fatal` counts as a panic,
and error texts are not distinguished.

Not modelled: logging, allocation failure below the largest slice a 64-bit Go program can ask for (2^48 bytes; beyond it `make` and
`append` panic, which the model has in `SetRange` and the reply reader; the dump loader never reads a length above 16383), TCP read errors other than
end-of-stream, file-system errors other than failed writes, Go's memory model below the level of atomic map steps.
