# Formal model of waves-fork-detector: design

Source: `/repo` (Go, read as text only).  Everything here is about a *model*
of that source, written in Lean 4 under `lean/Verif`.  This file says what is
modelled, what is trusted, how each property of `properties.jsonl` is
approached, and where the code disagrees with the property a user would
expect.

## 1. Trusted base

* The Lean 4 kernel, and the standard axioms `propext`, `Classical.choice`,
  `Quot.sound`.  No other axiom, no `sorry`, no `native_decide`, no
  `bv_decide`.  Section 6 lists the axioms of the property theorems.
* The hand translation from Go to Lean.  Each model definition cites the file
  and lines it translates.
* goleveldb: `DB` is a byte-sorted map; a `Batch` is applied atomically; a
  snapshot sees a fixed state; `Write` either applies the batch and reports
  success, or applies nothing and reports an error, or applies the batch and
  reports an error (the process may stop right after any of these).
  C98-C103 let reads fail: a lookup of an unreadable key returns an error, a
  walk leaves any set of entries out without an error.  In all other theorems
  reads succeed.  A read that
  returns wrong bytes (an undetected corruption) is not modelled.
* CBOR (fxamacker/cbor v2.6.0, default options): the models of the two
  databases keep records; C125 and C126 prove that the bytes of the records
  are read back as the records, for every reachable state.  `Cbor/Format.lean`
  spells out the encoding of unsigned and negative integers, byte strings,
  texts, arrays, maps and big numbers and how it is read back, written from RFC
  8949 and knowledge of the library, the source of which is not in the sandbox.
  Trusted: that the library does this, that `keyasint` fields are written in
  the order of their numbers, the limits 32 (levels) and 131072 (elements), and
  that texts which are not UTF-8 are refused on reading only.  Items of
  indefinite length, which the program never writes, are refused by the model.
  `proto.Version.String` and `NewVersionFromString` are spelled out in
  `Cbor/Peers.lean` and proved to round-trip (C126_version).
* Go runtime: slices, maps (iteration order is an arbitrary permutation),
  `sort.Sort` (result is *some* permutation that is sorted for `Less`; not
  stable), `math/big` = natural numbers, fixed width integers wrap.
  `int(math.Ceil(math.Log2(float64(h))))` is exact for every `uint32` `h > 0`.
* gowaves: `BlockID.Bytes`/`NewBlockIDFromBytes` are inverse on 32 and 64
  byte identifiers, `NewBlockIDFromBytes` rejects every other length; the zero
  `BlockID` is the all-zero 64-byte identifier; `NewAddressFromPublicKey`
  followed by `Bytes`/`NewAddressFromBytes` round-trips.
* qmuntal/stateless v1.6.9 in its default queued firing mode (the model spells
  the semantics out).
* `sync.RWMutex`: a blocked `Lock` blocks later `RLock`s.

* encoding/json (C122): `Services/Json.lean` spells out how strings, numbers,
  arrays and objects become text and how identifiers and IPv4 addresses look;
  the texts of times, IPv6 addresses and versions are parameters under the laws
  of `Texts.Lawful` (times can be told apart where the offset of the local time
  zone is a whole number of minutes).  That structs are encoded field by field
  in their order under the names of their tags is trusted.
* net/netip and net, addresses with ports (C128): `Services/AddrPort.lean` spells out
  `ParseAddrPort`, `AddrPort.String`, `net.IP.String`, `net.JoinHostPort`, `net.TCPAddr.String`,
  `net.TCPAddrFromAddrPort`, and `proto.NewTCPAddrFromString` on texts without brackets, from
  knowledge of these libraries. C128 proves from them what `Opts` (the laws `parse_valid` and
  `parse_print`) and `seedOf` in `Services/Params.lean` assume.
* net/netip (C123): `Services/Netip.lean` spells out `ParseAddr`, `String` and
  `MarshalText` of Go 1.22, written from knowledge of the library, the source of
  which is not in the sandbox; C123_lawful and C123_zone show that they satisfy
  what C122 and C117 assume of addresses.  Elsewhere `ParseAddr` is a parameter.
* package time (C124): `Services/Times.lean` spells out `MarshalJSON` in the
  same way; the offset of the local time zone is an arbitrary function of the
  time.  C124_lawful shows that it satisfies what C122 assumes of times.

Not modelled: network framing and the handshake bytes, logging, compression
of answers, Prometheus/echo plumbing, configuration files, memory
exhaustion, `proto.Block` signature checking (the program does not do it
either).

## 2. Architecture of the model

* `Verif/Prelude` - results of Go calls: a value, an error value, or a panic.
* `Verif/Bytes`, `Verif/KV` - bytes, big-endian numbers, lexicographic order;
  LevelDB as a sorted association list with `get`, batch `write`, range scan.
* `Verif/Chains/*` - `chains/storage.go`, `chains/linkage.go`, `utils.go`,
  `entities.go`, `storage_entities.go`, function by function over byte keys.
  Every `db.Write` takes a *fate* (applied / failed / applied-but-reported
  failed) so that crash points are ordinary executions.
* `Verif/Chains/Spec` - the specification vocabulary: parent and ancestor
  relation as seen through `Block`, lowest common ancestor, path, histories.
* The proof invariant is a refinement: a ghost tree (list of nodes with parent
  number, list of heads) *represents* the database.  Each operation preserves
  it.  The property theorems are stated on API results only.
* `Verif/Peers/*` - `peers/registry.go`, `peers/storage.go`,
  `peers/version_provider.go`, `peers/peer.go`, `peers/by_name.go`.
* `Verif/Loading/*` - `loading/queue.go`, `peer_loader.go` (with the queued
  state machine), `loader.go`.
* `Verif/Services/*` - small transition systems for distributor/loader
  shutdown, respawn, RWMutex, connection filter, API handlers, parameters.
* Concurrency.  Every exported method of `Linkage` and `Registry` holds the
  mutex of its object; C91 shows that such calls are equivalent to calls made
  one after the other, so the models take a call as one step.  The handlers of
  the distributor, the dialling and the connections make one call each on a
  guarded object per event, or the model has them as several steps.  The
  events of the loader make several calls; `Loading/Loader.lean` takes an
  event as one step, and `Loading/Fine*.lean` is the same code at the level of
  single calls with any calls of other goroutines in between (C92).  Fields
  that no mutex guards belong to one goroutine (C91 and the notes there).
* Property theorems live in `Verif/Props/*.lean`, one section per property,
  with a concrete instance beside each theorem.

Bounds that are part of the machine types: block numbers are `uint64`,
heights `uint32`.  Theorems about histories assume that fewer than 2^32 - 2
blocks are inserted (otherwise the height type itself overflows; what happens
then is a separate negative result).

## 3. Plan per property

| Id | What is modelled | How it is proved |
|----|------------------|------------------|
| C01 | all mutating calls with write fates, `Block`, `HasBlock` | monotonicity of the ghost tree along every step, induction over histories |
| C02 | `PutBlock` | case analysis under the representation invariant |
| C03 | `putProtoBlock`, `newBlock` | same, plus path-length induction |
| C04 | `calculateScore`, `calculateCumulativeScore` | arithmetic, induction along ancestors |
| C05 | `PutBlock`, `PutMicroBlock` on known ids | the database after the call is exactly one leash write |
| C06 | leash reads/writes | refinement to a last-writer map over histories |
| C07 | address keys | injectivity of the key encoding; zones are dropped by the code, so addresses differing only in zone collide (negative witness) |
| C08 | range scan | scan = filter on the sorted map; all-ones IPv6 and the invalid address are missed (negative witness), rest is exact |
| C09 | all calls | invariant; negative witness without the `MoveLeash` discipline |
| C10 | heads indexes | ghost heads list is a permutation of un-extended nodes |
| C11 | `activeHeads` | list reasoning |
| C12 | `getAncestors` | induction on count |
| C13 | `lca`, `fastBackwardFarthest`, `putNewLinkForBlock` | binary lifting invariant; the code panics for some trees: exact characterisation of the panic, negative witness, partial theorem |
| C14 | `LCB` | with C13 and C28 |
| C15-C18, C20 | `forks`, `Stats` | permutation/sort contracts; empty case panics (negative witness) |
| C19 | `Fork` vs `forks` | both characterised; ties make `Longest` differ (negative witness) |
| C21 | `ForkGenerators`, `getBlocks` | counting; negative count panics (witness) |
| C22 | `putMicroBlock` | as C02/C03 |
| C23 | write fates | each fate enumerated; convergence of the retry |
| C24 | `initialize` | no write when the counter is positive |
| C25 | key codecs | byte-list injectivity and order lemmas |
| C26 | histories | both stores characterised by the same parent-closed set |
| C27 | `calculateScore`, `safeTimestamp` | negative witnesses; positive theorem under both limits |
| C28 | best-fork loop | fold invariant |
| C29-C39 | registry model | invariants over registry histories, negative witnesses |
| C40-C45 | queue and peer loader | list induction, state machine unfolding |
| C46-C51 | loader | invariants over events; stalls are negative witnesses |
| C52 | tables | exhaustive over the content-id byte |
| C53, C54, C57 | transition systems | invariants; stuck executions as witnesses |
| C55, C56, C58 | handlers | case analysis, witnesses |
| C59 | `by_name`, sorted lists | permutation and order over all iteration orders |
| C60 | `LeashScore`, registry scores | histories, single steps |
| C61 | loader over a store | invariant of the running loader |
| C62 | RWMutex transition system | invariant over schedules |
| C63-C69, C77-C81 | the whole program as one transition system (`Services/Program`) | invariant over executions; each message kind unfolded in every reachable state |
| C70-C73 | reports of the HTTP handlers | handler calls made at different moments of one history |
| C74 | parameters and seed peers | case analysis, witness |
| C75, C76 | dial bookkeeping | induction over registry histories |
| C82 | the three lists of the HTTP interface | as C73, plus an invariant on recorded times |
| C83 | `giveUp` events of the program | case analysis; witness |
| C84 | the registry configuration | invariant over executions after `run` |
| C85 | registry and notices of connections | case analysis; witness |
| C86, C87 | executions of the program with their events | every event is a list of store calls whose arguments were said by a peer; invariant on queue, channel and store |
| C88 | executions of the program with their events, with good and with failing reads | invariant on the ports on record and the dialled addresses |
| C89 | states of a synchronisation with an honest peer | invariant: what is asked for is the next part of the history, the remembered difference belongs to an earlier block; scores grow along the history |
| C90 | program transition system | invariant over reached states |
| C91 | goroutines with lock operations and accesses to the guarded state | invariant: what is left of a call leads from the present state to where the whole call leads from the state after the returned calls |
| C92 | the handlers of the loader as programs of single calls, any calls of other goroutines in between | rely-guarantee: a safety predicate over the programs that is stable under what others do; induction on runs |
| C93 | the whole program, every connection notice, breakage and failed dial | exact change of the list of connections by one event; induction on runs |
| C94 | any number of runs of the program, each ended at any access to a database | a call cut short is the call with failed writes; induction on runs over the invariants of C92 and of the registry; evaluation of a witness |
| C95 | the record of every stored block against what its id stands for; program runs and interrupted runs | a record that is unique by induction along the true chain; induction on the numbers of nodes with their origins; evaluation of a witness |
| C96 | fork reports of the program against the true chains of the heads | C95 with C15, C16, C17 and C56; induction along the true chain |
| C97 | whole program, from messages to fork reports; any history, any other events | refinement of program steps to the session of C89; induction over the missing blocks for reachability of the end; C96 for the reports |
| C98 | single lookups under unreadable keys | the functions of chains/ once more with a set of unreadable keys; case analysis: same value or the read error |
| C99 | walks that miss entries | a walk that misses entries is the walk over the store without them; that store is itself reachable |
| C100 | writes under unreadable keys | case analysis for each call; induction over the history |
| C101 | lists and lookups of the registry under read faults | the reading functions once more with faults; a walk that misses entries is a filter |
| C102 | calls of the registry under read faults | case analysis per call; a call under faults is a sequence of calls without |
| C103 | the loader among other goroutines under read faults | the safety proof of C92 over all outcomes a failing disk can lead to; the state after every handler for arbitrary answers |
| C104 | reports on databases that fail to read or are being closed | each call of a handler is the call on a good database, on a store without the missed peers, or an error; composed through the handler |
| C105 | the whole program, interleaved call by call, under read faults | invariants over all paths; the loader's part refines C103, the fault-free atomic program of C88 is simulated |
| C106 | honest peer among other goroutines | a weakest-precondition predicate `Leads` on the programs of the handlers, with the disturbance of others (`Between`) and the room for insertions built in; an invariant of all moments; the end by a measure over the rest of the history |
| C107 | honest peer in the whole program, side by side | every event of `Sys.step` is one of the steps of C106 or a call of another goroutine, also when its read fails (`underway_called`); what is stored is true by C105_store and C105_origin; then as C97 |
| C108 | waits only for what is owed | what one event leaves behind, whatever its calls are answered (`all_afterwards`); then induction over the run with the list of everything received and sent (`watch`) |
| C109 | all answered means all loaded | the lists of words and of what the loader heard run side by side (`Tracks`); what the loader waits for is owed (C108), so it was not answered, or it is held by the distributor |
| C110 | in the end all is loaded | every event of the loader is a finite tree, so it comes to rest again and again; what it has asked for only grows and is bounded (C107), so it stops asking; then all answers come, are passed on and heard, and C109 applies |
| C111 | positions move only by their peer | all calls of a handler that write are for the peer of the synchronisation, whatever its calls are answered (induction over the program tree); the handler that opens a synchronisation writes nothing |
| C112 | all peers are up to date in the end | while nothing is synchronised no position moves back, so the next timer finds a peer that lags or none; a synchronisation ends by C110 and moves only the position of its peer by C111; induction over the peers that may lag |
| C113 | the reports show all forks between the connected peers, and no other ones | by C112 the positions are the last blocks of the histories in the end; the entries of the report (C15, C16, C96) are then translated from chains of the store to positions in the lists of blocks |
| C114 | the program listens exactly if it is configured to | case analysis of newParameters; no step of the program leaves or enters the state without a server |
| C115 | no peer keeps the loader to itself | disproved: a peer that goes back and forth between two blocks; partial: a bound on the number of requests by induction over the synchronisation, with the last difference as the measure |
| C116 | every path of the API leads to its report | splitting into segments is inverted; the table of routes against an inductive relation between texts and reports |
| C117 | addresses in requests may be percent-encoded | the path is decoded only if encoding it again gives the same text; the two encodings are compared character by character; disproved for colons; queries by a round trip |
| C118 | the exit status tells whether the program worked | the process as a state machine around the program; case analysis on its runs, with the order of the shutdown (C90) |
| C119 | the same question gets the same answer while nothing changes | permutations through the loops and sorts, uniqueness of the best block |
| C120 | the database of blocks grows only with new blocks and new peers | counting along the representation invariant |
| C121 | the database of peers has one record for every peer heard of | counting distinct addresses, the listed writes of the registry |
| C122 | the text of a report can be read back | a reader of JSON in Services/JsonSpec.lean, induction over values; base58 is injective |
| C123 | an address shown can be used in a request | net/netip modelled in Services/Netip.lean; round trip by the shape of the text (groups before and after the longest run of zeros); with a port it is refused (negative theorem) |
| C124 | times in reports | `absDate` and `appendFormatRFC3339` modelled in Services/Times.lean; the calendar counted year by year in the specification, closed form by induction |
| C125 | bytes of blocks | CBOR of the records written and read by functions over byte lists (Cbor/Format.lean); round trip by the shape of the items, scores bounded along histories |
| C126 | bytes of peers | the same for the records of peers; the sizes of stored records along histories of calls |
| C127 | bytes on disk | lengths of encodings, an invariant on all records of the database, combined with the counts of C120 and C121 |
| C128 | addresses mean the same after every detour through text | ParseAddrPort, AddrPort.String and TCPAddr.String modelled; round trips from those of ParseAddr; the laws assumed of the library in Services/Params.lean are instances |
| C129 | the log names states and batches truly | the generated String functions and rangeString with their slices and index accesses that may panic; count of a batch from the contents of the queue (C40) |
| C130 | The work for a block or a report grows with the number of peers and the logarithm of the height | the functions with a count of the records read, refinement to those without, bounds by induction along the skip links; keys that decide the answer |
| C131 | Loading the history of an honest peer requests only what is missing, and nothing twice | invariant over the sessions of C89: the requests are a sublist of a prefix of the history whose last block is stored or still in the queue |
| C132 | Only missing blocks are requested, and none twice, while the other goroutines work | the invariant of C131 carried through the single calls: what an event requests is not stored when the event comes (`Spent`, by the rules of `Leads`) |
| C133 | Only missing blocks are requested in the whole program | the invariant of C132 at every event of the program |
| C134 | Messages are bounded by inputs | a bill of the messages sent and of the triggers still waiting, kept by every handler whatever the calls answer; then induction over runs |
| C135 | Nothing is sent without a cause | invariant of the whole program: the output against the events that give cause for it, the registry's connections and the loader's peer against the connections that came up |
| C136 | Nothing is written to a closed connection | invariant: the listed connections are open and came up with the address under which they are listed, in the program with good reads and in the one with failing reads; counterexamples by evaluation |
| C137 | No peer loses its connection by what others do or by a failing disk | every event that is not about an address leaves the list for this address alone; induction on executions |

## 4. Where the code and the expected property disagree

Each item is a theorem about the model with a concrete witness (checked by
evaluation in the kernel) unless it says "reading only".

### Block store (`chains`)

* The search for a common ancestor (`lca`, linkage.go) panics for some pairs
  of blocks.  `LcaPanics` is the exact condition (C13_lca_exact), C13_panics a
  witness.  `LCB`, `Fork`, `Forks`, `Stats` and the handlers above them
  inherit the panic (C14_panics, C56_panics), and so does the loader when it
  restarts a synchronisation (C48_crash).
* `Forks` and `Stats` panic when no leash is selected (C18_panics,
  C18_witness).  `/status` answers 500 until the first leash (C72_no_forks).
* A base target of 2^63 or more panics in `PutBlock` (C27_panics), and the
  distributor passes it on from any peer (C69_base_target).  A timestamp of
  2^63 or more is stored and makes later reads panic (C27_poisons).
* `leashes()` scans a half-open range that misses the all-ones IPv6 address
  and the invalid address (C08_leashes_missed).
* The leash key drops the IPv6 zone (C07_zones_share).
* `MoveLeash` does not check that the block exists; a dangling leash breaks
  queries (C09_condition_needed).  The loader only passes stored ids.
* `Fork` for a peer without a leash on a store without leashes reports a
  "longest" fork (reading only; excluded by the hypotheses of C19).
* With equally good blocks the fork called longest depends on the map
  iteration order (C19_tie).
* The same id delivered as a micro-block and as a block leads to different
  heads, depending on which came first (C26_micro_or_block).
* A negative or enormous number of blocks for the generators of a fork
  panics; one that fits the address space but not the memory ends the program
  (C56_bad_numbers).

### Registry (`peers`)

* `RegisterPeer` replaces a hostile record by a connected one: the check of
  the state is made on the new record, not on the stored one (C33_revived).
* `MarkAsHostile`-like paths are not called anywhere, and would fail on the
  text form of `TCPAddr` (reading only).
* `RegisterPeer` without the connection manager can leave a connection with
  no record, after which `Connections()` fails (C35_unmanaged); the program
  never does this (C63).
* An IPv6 key is cut to four bytes and aliases an IPv4 peer (C36_ipv6_alias).
* A damaged record is returned as an empty peer with no error
  (C36_damaged).
* Two configured versions that differ in the patch number only make the
  version rotation stick (C34_same_minor_sticks).
* Rounding to seconds may shorten the back-off by half a second
  (C31_rounding).
* The registry is keyed by IP address.  The end of a replaced connection
  drops the newer one (C67_replaced), and the old one is never closed
  (C93_lost).  The complete list of the ways in which an open connection is
  forgotten is `Lost` in Services/Conns.lean (C93_accounted_partial).
* Connections from the own address, or with an unparsable declared address,
  are refused but left open (C78_own_address, C78_unparsable).
* An empty application name in a handshake panics (C69_app_name).

* A dial that fails unregisters its address.  If the same address connected
  to the program meanwhile, that live connection is dropped from the registry
  and not closed (C83_lost).
* Reading only: an accepted TCP connection for which `SuggestVersion` refuses
  (a hostile peer) is not closed by the program (connection_manager.go:70-80,
  listener.go:81-87); it stays open until the garbage collector runs the
  finaliser of the connection.

### Loader (`loading`)

* A repeated id in the list of block ids makes the queue never ready
  (C41_duplicate).
* A store error while the received prefix is applied leaves the peer loader
  in its final state for ever (C46_stuck, C46_one_peer).
* A queue left over from an earlier request is applied again, and the leash
  goes back (C44_stale, C44_back).
* A block refused by the store inside a completed batch leaves the loader
  waiting until the timeout (C43_refused).
* The remembered difference of scores survives a failed synchronisation and
  ends the next one early (C49_leftover).
* A block that the peer sends a second time can be stored by the distributor
  between the last `PutBlock` of the loader and its `LeashScore`.  The
  difference of scores is then the same as before, and a peer whose history
  is not complete is released (C92_early_release).  The next timer event
  starts over.  Without such a call the history is loaded completely
  (C106_released).

### Services

* Shutdown deadlocks when the loader has left and the distributor is about to
  hand it a package (C53_deadlock, C53_stuck).
* Shutdown dereferences a nil listener when none was configured
  (C53_no_listener, C53_crash).
* One failed `TakeAvailableAddresses` (a record that does not decode, or a
  snapshot that cannot be taken) stops all dialling for ever (C54_stops).
* A block with a timestamp of 2^63 - 1 or more, sent by any peer on its own
  position, is stored, and from then on `LogInitialStats` panics at every
  start: the program cannot be started again until the store is deleted
  (C94_never_again, C94_stuck; exact condition C94_start_exact).
* Nothing checks that an id belongs to the contents that come with it: the
  signature that is the id of a block in the old format is not verified, and
  the total block id of a micro-block announcement is whatever the sender
  writes.  The first sender of an id decides what is recorded under it, for
  all other peers too and for ever (C95_liar).
* `it.Error()` is never called: when the disk fails during a walk over the
  leashes, heads or peers, the entries not reached (or skipped) are missing
  from the answer and there is no error.  A fork report can then lack the best
  chain and call another one the longest (C99_wrong).
* `UnregisterPeer` reads the record before it forgets the connection; when the
  read fails, a broken connection stays on the list (C102_dead_connection), and
  an address whose dial failed is never dialled again (C102_never_dialled).
* `OK` of the loader returns without releasing the peer when the record of the
  peer or the score of its position cannot be read, and `handleFailure` returns
  before `Fail` when a block cannot be stored.  The loader is then in a state in
  which it ignores everything, and `sync` thinks that a synchronisation is
  under way: nothing is loaded any more until a restart (C103_wrong).
* `LeashScore` logs nothing and returns nothing when the leash cannot be read:
  it goes on with the zero id, and if a block with the zero id is stored, which
  any peer can send, the score of that block is returned (C98_score_wrong).
* `LogInitialStats` takes a read lock twice; beside a writer it can deadlock
  (C57_deadlock).  The program calls it only before the services start.
* `/active-forks` for nobody connected reports about everybody
  (C55_everyone, C55_reports_the_absent).
* A block dated in the year 10000 or later makes five reports answer 500
  (C56_year, C70_year, C71_year).
* An IPv6 bind or declared address passes the checks and then panics
  (C58_panics); an unparsable declared address is dropped without a word
  (C58_silent); IPv6 seed peers are dropped without a word (C74_ipv6).
* A node of another network whose name is not UTF-8 is disconnected but never
  marked hostile, because its record is not written (C85_not_marked).
* Reading only: `handleBlock` of the distributor wraps `err`, which is nil
  there, instead of `putErr`, so that the cause of a failed write is not shown.
* `ListenAndServe` failing ends the program through `Fatalf` (C118_api). Reading only:
  `srv.Shutdown` is called with a cancelled context and returns at once; the
  databases are closed by deferred calls while dial goroutines and handlers
  may still run.
* api/api.go, chains/storage.go:412-436, 664-682, peers/storage.go:125-155: an iteration that ends early because the disk fails is
  answered with status 200 (C104_wrong). The forks report then calls a shorter fork the longest; if no leash is delivered at all, the
  lists of heads and leashes are empty, and `/fork/{address}` of a peer with a leash gives a fork without a head block and without
  peers and calls it the longest, because `fork.HeadBlock == longest` compares two zero ids (chains/linkage.go:388). The remedy is to
  return `it.Error()` after the loops.
* distributor.go:204-215: a block that the loader has asked for and that arrives while a read of the store fails is neither stored nor
  passed to the loader; the loader waits until its timeout of thirty seconds and gives the peer up (C105_dropped).
* A peer that has sent everything it was asked for is waited for until the
  timeout and counted as failed, if it listed an id twice, or if the store
  could not be read when its list of ids came, since then nothing is requested
  (C108_wrong); after a refused block it is waited for too (C108_refused).
* loading/loader.go:127-150: `OK` goes on with the same peer whenever the difference to its announced score has changed since the last batch,
  also when it has grown.  A peer that announced a high score and answers each request with one known id, by turns of two stored
  blocks, is asked again and again for ever; every other peer that lags behind is never synchronised (C115_kept, C115_starves).  Going on
  only when the difference has become smaller would give the bound of C115_bound_partial.
* api/api.go:324-330, 353-359: chi routes `URL.RawPath` when it is set, and `chi.URLParam` does not decode.  `net/url` sets it whenever the
  text of the request is not its own default encoding, and a colon needs no encoding there.  So a client that encodes an IPv6 address
  (`encodeURIComponent("::1")` is `%3A%3A1`) gets 400 for a known peer (C117_refused, C117_witness).  The remedy is `url.PathUnescape`.
* forkdetector.go:24-33: when `run` has failed and the message cannot be written to the standard error, `main` returns, and the status is
  0 as after an orderly stop (C118_unseen, C118_witness).  The remedy is `os.Exit(1)` in both cases.  Reading only: the deferred function
  in forkdetector.go:42-46 asks whether the error of `run` is `os.ErrInvalid`; it should ask about the error of `Sync`.
* chains/linkage.go:295-319, 347-386, 498-544: among leashed blocks with the same score and the same number of peers the longest one is
  whichever the map delivers first, or `sort.Sort` leaves first.  So the same store gives different numbers of long forks at two requests
  (C119_witness), and a panic at one request and a report at the next (C119_panics).  The remedy is to compare the ids last.
* peers/registry.go:226-267: `AppendAddresses` stores every new acceptable address of a list, and no record is ever removed, so one peer that
  sends lists of made-up addresses fills the database without end, up to one record for every IPv4 address (C121_unlimited, C121_flood); every
  ten minutes each of them is dialled again.  No property promises a limit; a limit per message and peer would be the remedy.
* api/api.go:163-203, 326, 355, 409, peers/peer.go:24: the reports about peers show `address:port`, the requests about forks accept an address
  only, and `netip.ParseAddr` refuses the text with a port.  So an address copied from `/peers/all` gets 400 in `/fork/{address}`
  (C123_ports).  The remedy is to accept both, or to show the port as a field of its own.
* distributor.go:127-141, loading/loader.go: the loader is not told when the connection of its peer breaks.  It goes on writing to the
  connection that the distributor closed, as long as messages of the peer that were on their way are handled, or until its timeout
  (C136_loader); lists of peers go to closed connections in the same way (C136_list).  And the loader reads the
  list of connections before it chooses: if the connection breaks in between, a synchronisation begins over it and has to time out
  (C136_begun_late).
* peers/registry.go:160-179: if the record of the peer cannot be read when its connection breaks, the connection is closed but stays on the
  list of connections, is pinged, and may be chosen for a synchronisation (C136_failed_read).  The remedy is to delete it from the map first.

## 5. Per-property details

**C01 Stored blocks are permanent and immutable** - proved. All histories with all write fates; up to 2^32-3 insert calls (block heights are uint32).
Theorems (in `Props/Blocks.lean`): `C01_blocks_permanent`.

**C02 PutBlock accepts exactly the blocks it can attach** - proved. Exact acceptance condition, orphan refusal, refused calls change nothing, accepted blocks are stored and leashed.
Theorems (in `Props/Blocks.lean`): `C02_accept_iff`, `C02_orphan_refused`, `C02_refused_unchanged`, `C02_accepted_stored`.

**C03 Height is one more than the parent's height** - proved. Record of a new block, readback through Block, height = length of every path to genesis, path exists.
Theorems (in `Props/Blocks.lean`): `C03_C04_new_block`, `C03_block_readback`, `C03_genesis`, `C03_height_is_path_length`, `C03_path_exists`.

**C04 Score is cumulative** - proved. Score of a new block in C03_C04_new_block; monotone along ancestry.
Theorems (in `Props/Blocks.lean`): `C03_C04_new_block`, `C04_score_monotone`.

**C05 Re-announcing a known block only moves that peer's leash** - proved. Blocks and micro-blocks; the store is compared through every query (SameTree) and through all leashes.
Theorems (in `Props/Blocks.lean`): `C05_known_block`, `C05_known_micro`.

**C06 A peer's leash is the last block it was successfully moved to** - proved. Exact for acknowledged writes; C06_leash_with_lost_acks covers writes whose acknowledgement was lost.
Theorems (in `Props/Leashes.lean`): `C06_leash_is_last_success`, `C06_leash_with_lost_acks`.

**C07 Peers do not interfere through leashes** - proved. Isolation per address; addresses are told apart up to the IPv6 zone, which the key drops (C07_zones_share).
Theorems (in `Props/Leashes.lean`): `C07_isolation`, `C07_told_apart`, `C07_zones_share`.

**C08 Leashes() lists every leashed peer exactly once** - partial. False for the all-ones IPv6 address and the invalid address (C08_leashes_missed); exact for every other address (C08_leashes_partial).
Theorems (in `Props/Leashes.lean`): `C08_leashes_partial`, `C08_missed`.

**C09 Leashes never dangle** - proved. Needs that MoveLeash is only called with stored ids, as the loader does; C09_condition_needed shows why.
Theorems (in `Props/Leashes.lean`): `C09_no_dangling`, `C09_condition_needed`.

**C10 Heads are exactly the blocks nothing was built on** - proved. Heads are numbered 1..N and are exactly the stored blocks that no block stored in the history extends; heads never decrease in number.
Theorems (in `Props/Heads.lean`): `C10_heads`, `C10_heads_grow`.

**C11 ActiveHeads is Heads restricted to leashed blocks** - proved. Exactly the heads on which some listed leash sits.
Theorems (in `Props/Heads.lean`): `C11_active_heads`.

**C12 LastIDs walks the chain back from the given block** - proved. The answer is a parent walk of min(count, height) blocks; counts from 0 up.
Theorems (in `Props/Heads.lean`): `C12_lastIDs`, `C12_nonempty`, `C12_stops_at_genesis`, `C12_unknown`.

**C13 Last common block of two forks is their lowest common ancestor** - partial. False in general: lca panics exactly when LcaPanics holds (C13_lca_exact); C13_lca_partial is the positive part, C13_panics the witness. C13_shapes builds a store for every height of the last common block and every length of the two branches, and says for each whether the comparison panics; C13_panics_at_every_height gives failing pairs for a last common block at any height.
Theorems (in `Props/Lca.lean`): `C13_unique`, `C13_lca_exact`, `C13_lca_partial`, `C13_panics`, `C13_shapes`, `C13_panics_at_every_height`.

**C14 LCB returns the last common block with the best chain** - partial. Exact whenever LCB answers, with a condition for answering; C14_panics shows that it may panic instead.
Theorems (in `Props/Forks.lean`): `C14_lcb_partial`, `C14_answers`, `C14_panics`.

**C15 Forks partition the leashed peers** - proved. Every iteration order and sort behaviour; C15_C16_C17_answers gives the condition for an answer.
Theorems (in `Props/Forks.lean`): `C15_partition`, `C15_each_peer_once`, `C15_C16_C17_answers`.

**C16 Forks are ranked and exactly one is the longest** - proved. Every iteration order and sort behaviour.
Theorems (in `Props/Forks.lean`): `C15_C16_C17_answers`, `C16_ranked`, `C16_first_is_best`.

**C17 Fork length counts blocks since the last common block** - proved. Every entry of every report.
Theorems (in `Props/Forks.lean`): `C15_C16_C17_answers`, `C17_lengths`.

**C18 Forks with nobody selected is an empty report** - partial. False: Forks and Stats panic exactly when nobody is selected (C18_panics, C18_witness).
Theorems (in `Props/Forks.lean`): `C18_panics`, `C18_witness`, `C18_no_wrong_report_partial`.

**C19 Fork(peer) agrees with Forks** - proved. Two independent iteration orders; equality of all fields when the best block is unique, C19_tie shows why that is needed.
Theorems (in `Props/Forks.lean`): `C19_fork_agrees`, `C19_fork_answers`, `C19_tie`.

**C20 Stats counts every fork once** - proved. Counts and failures of Stats follow Forks.
Theorems (in `Props/Forks.lean`): `C20_stats`, `C20_stats_fails`.

**C21 ForkGenerators counts generators of the last blocks** - proved. Generators counted over the blocks of LastIDs.
Theorems (in `Props/Forks.lean`): `C21_generators`, `C21_answers`.

**C22 Micro-blocks inherit from their reference** - proved. Micro-block inherits its reference's record, exact acceptance condition, refusals leave the store unchanged.
Theorems (in `Props/Blocks.lean`): `C22_micro_inherits`, `C22_micro_accept_iff`, `C22_micro_refused`.

**C23 Inserting a block is crash-atomic and resumable** - proved. Every combination of write fates (failed, applied but not acknowledged) stands for a crash point.
Theorems (in `Props/Blocks.lean`): `C23_putBlock_atomic`, `C23_putBlock_resumable`, `C23_putMicro_resumable`, `C23_putMicro_atomic`.

**C24 Reopening preserves everything** - proved. Reopening is the identity on the database; facts about a first open; interrupted first open.
Theorems (in `Props/Blocks.lean`): `C24_reopen`, `C24_fresh`, `C24_first_open_resumable`.

**C25 Storage keys never collide** - proved. Injectivity of all seven key kinds, order and decoding of number keys, decoding of address keys.
Theorems (in `Props/Blocks.lean`): `C25_keys_injective`, `C25_numbers`, `C25_addresses`.

**C26 The block tree does not depend on arrival order** - proved. C26_same_blocks is more general than the claim (any histories); C26_micro_or_block shows the condition on contents is needed.
Theorems (in `Props/Order.lean`): `C26_same_blocks`, `C26_order`, `C26_same_reports`, `C26_micro_or_block`.

**C27 No block a peer sends can crash or poison the store** - partial. False as stated: C27_panics and C27_poisons are witnesses; C27_partial is what holds.
Theorems (in `Props/Blocks.lean`): `C27_panics`, `C27_poisons`, `C27_partial`.

**C28 Best block selection maximises score then peers** - proved. Every iteration order.
Theorems (in `Props/Forks.lean`): `C28_best_chosen`, `C28_longest_flag`.

**C29 Only eligible addresses are dialled** - proved. Exact set of available addresses in every reachable registry.
Theorems (in `Props/Dialing.lean`): `C29_available`.

**C30 An address is never dialled twice concurrently** - proved. Any calls in between, for any addresses, with any write failures.
Theorems (in `Props/Dialing.lean`): `C30_not_twice`.

**C31 Failed or dropped peers back off** - proved. Next attempt is rounded to whole seconds, so the pause may be half a second short (C31_rounding).
Theorems (in `Props/Dialing.lean`): `C31_unregister`, `C31_suggest`, `C31_rounding`.

**C32 AppendAddresses only adds unknown public IPv4 addresses** - proved. Exact effect of AppendAddresses when the writes succeed, and its count.
Theorems (in `Props/Dialing.lean`): `C32_append`.

**C33 Hostile peers stay shut out** - partial. False as stated: RegisterPeer revives a hostile peer (C33_revived); what holds: it is not dialled, gets no version, and stays hostile while no handshake completes (C33_*_partial).
Theorems (in `Props/Dialing.lean`): `C33_not_dialled`, `C33_no_version`, `C33_stays_hostile_partial`, `C33_managed_partial`, `C33_revived`.

**C34 Version suggestion cycles through all acceptable versions** - partial. Needs that no two configured versions agree in major and minor number; C34_same_minor_sticks shows why.
Theorems (in `Props/Registry.lean`): `C34_cycle_partial`, `C34_same_minor_sticks`.

**C35 Connections() always answers and lists the live connections** - proved. For the histories the connection manager produces; C35_unmanaged shows that RegisterPeer alone can break Connections().
Theorems (in `Props/Registry.lean`): `C35_connections`, `C35_unmanaged`.

**C36 The peer store holds only IPv4 peers** - proved. All histories, including writes that fail; C36_ipv6_alias and C36_damaged are findings about lookups outside the claim.
Theorems (in `Props/Registry.lean`): `C36_ipv4`, `C36_ipv6_alias`, `C36_damaged`.

**C37 Score updates touch only the score** - proved. Frame property over all registries; failed writes and unknown peers change nothing.
Theorems (in `Props/Registry.lean`): `C37_update`, `C37_refused`.

**C38 We never connect to ourselves** - proved. Own address (declared) is never connected, registered, dialled or appended.
Theorems (in `Props/Dialing.lean`): `C38_not_connected`, `C38_not_registered`, `C38_not_dialled`, `C38_not_appended`.

**C39 Friendly peers are the peers that have connected** - proved. Exact list, order, and the only way into the Connected state.
Theorems (in `Props/Registry.lean`): `C39_list`, `C39_becomes`.

**C40 The download queue is ready exactly when every requested block arrived** - proved. Readiness, order and contents for every request list and every sequence of arriving blocks; C40_last: the last block received without a gap.
Theorems (in `Props/Queue.lean`): `C40_ready_iff`, `C40_contents`, `C40_last`, `C40_unrequested`, `C40_order`.

**C41 A batch is always completable** - partial. False for a request list with a repeated id (C41_duplicate: never ready, whatever arrives); true without repetitions (C41_partial).
Theorems (in `Props/Queue.lean`): `C41_partial`, `C41_duplicate`.

**C42 Blocks are requested from the first unknown id on** - proved. For every reachable loader over a serving store, with successful writes; the requested list is exact and in order.
Theorems (in `Props/Loader.lean`): `C42_requested`, `C42_known`.

**C43 Completed batches are applied in request order** - proved. C43_complete gives the effect of a completed batch; C43_refused shows what a block refused by the store does to it.
Theorems (in `Props/Loader.lean`): `C43_waiting`, `C43_complete`, `C43_refused`.

**C44 On timeout exactly the received prefix is applied** - partial. True for batches the store accepts (C44_partial); false for a queue left over from an earlier request (C44_stale) and after the distributor moved the leash on (C44_back).
Theorems (in `Props/Loader.lean`): `C44_partial`, `C44_stale`, `C44_back`.

**C45 Loading times out strictly after 30 seconds of silence** - proved. Exact condition for the timeout on every reachable loader; the time stamp is the time of the last request.
Theorems (in `Props/Loader.lean`): `C45_iff`, `C45_timestamp`, `C45_resting`.

**C46 The history loader never gets stuck** - partial. False: C46_stuck and C46_one_peer. What holds: ticks keep coming (C46_ticks_partial), a silent peer is released in a wait for ids (C46_ids_partial) and in a wait for blocks whose received prefix the store accepts (C46_blocks_partial).
Theorems (in `Props/Sync.lean`): `C46_stuck`, `C46_one_peer`, `C46_ticks_partial`, `C46_ids_partial`, `C46_blocks_partial`.

**C47 Only the peer being synchronised influences the loader** - proved. Answers of others, empty answers, answers without a synchronisation and answers in the wrong state change nothing.
Theorems (in `Props/Loader.lean`): `C47_others`, `C47_empty`, `C47_inactive`, `C47_unexpected`.

**C48 One id request per synchronisation step** - partial. Exact message and starting point; after ten failures the search for the last common block may crash the program (C48_crash), so that half is partial.
Theorems (in `Props/Sync.lean`): `C48_start`, `C48_restart_partial`, `C48_crash`.

**C49 Loading continues only while it makes progress** - partial. Exact condition in terms of the remembered difference (C49_partial), what changes it (C49_remembered_partial); the difference may be left over from another synchronisation (C49_leftover).
Theorems (in `Props/Sync.lean`): `C49_partial`, `C49_remembered_partial`, `C49_leftover`.

**C50 Only lagging peers are synchronised** - proved. Only lagging connected peers, one of them whenever there is one, the one with the number drawn, nothing otherwise; the peer is not replaced while the synchronisation runs.
Theorems (in `Props/Sync.lean`): `C50_only`, `C50_one`, `C50_some`, `C50_fair`, `C50_nobody`.

**C51 Failure counter** - proved. Per event and over whole runs; C51_covered shows that every run has its number.
Theorems (in `Props/Sync.lean`): `C51_step`, `C51_history`, `C51_covered`.

**C52 Incoming messages are neither lost nor wasted** - proved. Exact: skipped kinds are those on which the distributor has no effect in any reachable state.
Theorems (in `Props/Program.lean`): `C52_filter`, `C52_lossless`, `C52_table`.

**C53 Shutdown terminates** - partial. False as stated: deadlock when the loader leaves before taking a package (C53_deadlock, C53_stuck), crash when the listener is missing (C53_no_listener, C53_crash). What holds: exit is reachable otherwise (C53_exit_partial), in at most eleven leaving steps, one of which is always enabled (C53_steps_partial).
Theorems (in `Props/Program.lean`): `C53_deadlock`, `C53_stuck`, `C53_no_listener`, `C53_crash`, `C53_exit_partial`, `C53_steps_partial`.

**C54 Reconnection keeps running** - partial. False after one failed TakeAvailableAddresses, i.e. a record that does not decode or a snapshot that cannot be taken; errors of the iterator itself are not noticed, see C101 (C54_stops); otherwise the timer stays armed and dials exactly the available addresses.
Theorems (in `Props/Program.lean`): `C54_fires_partial`, `C54_armed_partial`, `C54_stops`.

**C55 active-forks reports only connected peers** - partial. False when nobody who is asked for is connected: the report is then about all leashed peers (C55_everyone, C55_reports_the_absent); otherwise exact (C55_only_connected_partial).
Theorems (in `Props/Api.lean`): `C55_request`, `C55_bad_request`, `C55_only_connected_partial`, `C55_everyone`, `C55_reports_the_absent`.

**C56 Every fork request gets a correct HTTP answer** - partial. Data exact where there is an answer; there is none for zoned addresses, blocks dated after the year 10000, far branches, and negative or huge numbers of blocks (C56_zone, C56_year, C56_panics, C56_bad_numbers).
Theorems (in `Props/Api.lean`): `C56_refused`, `C56_fork_partial`, `C56_answers_partial`, `C56_number`, `C56_generators_refused`, `C56_generators`, `C56_bad_numbers`, `C56_generators_answers_partial`, `C56_year`, `C56_year_witness`, `C56_zone`, `C56_panics`.

**C57 Readers and writers never deadlock** - partial. Every schedule ends and all calls return when LogInitialStats is not among them (C57_calls_partial) or when there are only readers, as in the program (C57_readers); LogInitialStats beside a writer can deadlock (C57_deadlock).
Theorems (in `Props/Locks.lean`): `C57_calls_partial`, `C57_readers`, `C57_deadlock`.

**C58 Start-up accepts every address it validates** - partial. False: an IPv6 bind or declared address passes the checks and panics in As4 (C58_panics), and an unparsable declared address is dropped without an error (C58_silent); all other cases are accepted or refused with an error (C58_accepts_partial, C58_refuses).
Theorems (in `Props/Params.lean`): `C58_accepts_partial`, `C58_refuses`, `C58_panics`, `C58_silent`.

**C59 Broadcast reaches exactly the live connections** - proved. Every history and every map iteration order.
Theorems (in `Props/Registry.lean`): `C59_broadcast`.

**C60 The score of a peer is the one it announced last** - proved. Over all histories; C60_kept and C60_fresh are the single steps.
Theorems (in `Props/Scores.lean`): `C60_kept`, `C60_fresh`, `C60_latest`.

**C61 The loader keeps the block store sound** - proved. Over all runs with room in the uint32 heights.
Theorems (in `Props/Sync.lean`): `C61_serving`, `C61_kept`.

**C62 Updates of the store are atomic** - proved. Over all schedules of any number of goroutines.
Theorems (in `Props/Locks.lean`): `C62_exclusive`.

**C63 The list of connections is always available** - proved. Over all executions of the program; the condition Managed of C35 is discharged by the invariant of the program.
Theorems (in `Props/Messages.lean`): `C63_connections`.

**C64 Answers reach the loader in order** - proved. Order and completeness over all executions; content of what is sent for ids and signatures; blocks are in C65.
Theorems (in `Props/Messages.lean`): `C64_order`, `C64_taken`, `C64_delivered`, `C64_ids`.

**C65 A block from a peer is linked or passed on** - proved. With writes that succeed, a generator and a base target below 2^63.
Theorems (in `Props/Messages.lean`): `C65_block`, `C65_undecodable`.

**C66 Peers are shared with those who ask** - proved. Exact answer in every reachable state.
Theorems (in `Props/Messages.lean`): `C66_peers`.

**C67 A broken connection is dropped, and only that one** - partial. False when the peer opened a second connection (C67_replaced); true when the broken connection is the registered one (C67_broken_partial).
Theorems (in `Props/Messages.lean`): `C67_broken_partial`, `C67_replaced`.

**C68 Score messages set the score of their sender** - proved. Exact effect, in every reachable state.
Theorems (in `Props/Messages.lean`): `C68_score`, `C68_ignored`.

**C69 No message stops the program** - partial. False: a block with a base target of 2^63 or more on a known parent, or a handshake with an empty application name, panics (C69_base_target, C69_app_name); everything else is survived (C69_survives_partial).
Theorems (in `Props/Messages.lean`): `C69_survives_partial`, `C69_base_target`, `C69_app_name`.

**C70 The heads report is exact** - partial. Exact where there is an answer (C70_heads); no answer when a head is dated after the year 10000 (C70_year).
Theorems (in `Props/Reports.lean`): `C70_heads`, `C70_answers_partial`, `C70_year`.

**C71 The leashes report is exact** - partial. Exact where there is an answer (C71_leashes); no answer when a peer is on a block dated after the year 10000 (C71_year).
Theorems (in `Props/Reports.lean`): `C71_leashes`, `C71_answers_partial`, `C71_year`.

**C72 The status is given at any time** - partial. False without leashes: the request panics (C72_no_forks); exact whenever the forks can be computed.
Theorems (in `Props/Reports.lean`): `C72_status_partial`, `C72_no_forks`.

**C73 The peers report is complete** - proved. Exact, in every reachable registry.
Theorems (in `Props/Reports.lean`): `C73_peers`.

**C74 Seed peers are known after the start** - partial. False for true IPv6 seed peers, which are accepted and then dropped (C74_ipv6); proved for IPv4 ones, plain or IPv4-mapped. Two of them with the same address count once, with the port of the first one.
Theorems (in `Props/Params.lean`): `C74_seeds_partial`, `C74_ipv6`.

**C75 A peer that left is dialled again** - proved. Proved with the half second that rounding may add; C75_write_failed covers a refused write.
Theorems (in `Props/Redial.lean`): `C75_again`, `C75_write_failed`.

**C76 A newly announced peer is dialled at the next attempt** - proved. Proved in every reachable registry.
Theorems (in `Props/Redial.lean`): `C76_announced`.

**C77 A qualified node that connects is registered** - proved. Proved; the record needs a node name in UTF-8 and a working database (C77_record), the connection does not (C77_joins).
Theorems (in `Props/Notices.lean`): `C77_joins`, `C77_record`, `C77_refused`.

**C78 A refused connection is closed** - partial. False for connections from our own address and for declared addresses that do not parse, which stay open (C78_own_address, C78_unparsable); all others are closed (C78_closed_partial).
Theorems (in `Props/Notices.lean`): `C78_closed_partial`, `C78_own_address`, `C78_unparsable`.

**C79 Announced addresses become known** - proved. Proved; exact effect.
Theorems (in `Props/Notices.lean`): `C79_addresses`.

**C80 Micro-block announcements move the leash of their sender** - proved. Proved; exact cases.
Theorems (in `Props/Notices.lean`): `C80_micro`, `C80_unusable`.

**C81 Every connection is asked for peers** - proved. Proved.
Theorems (in `Props/Notices.lean`): `C81_ping`.

**C82 The lists of peers and connections are answered** - proved. Proved for every execution in which the clock stays between 1970 and 9999.
Theorems (in `Props/Config.lean`): `C82_peers`, `C82_friendly`, `C82_connections`.

**C83 A failed dial costs no connection** - partial. False: a connection that came in while the dial was pending is dropped from the registry (C83_lost); everything else is not touched (C83_failed_partial).
Theorems (in `Props/Config.lean`): `C83_failed_partial`, `C83_lost`.

**C84 The program runs with what was configured** - proved. Proved.
Theorems (in `Props/Config.lean`): `C84_connections`, `C84_versions`, `C84_no_crash`.

**C85 Nodes that do not fit become hostile** - partial. False for nodes whose names are not UTF-8 (C85_not_marked): the record cannot be encoded, so it never becomes hostile. Proved for all others (C85_marked_partial) and for MarkAsHostile (C85_mark).
Theorems (in `Props/Hostile.lean`): `C85_marked_partial`, `C85_not_marked`, `C85_mark`.

**C86 Positions are the peers' own words** - proved. Proved for every execution that leaves room below the uint32 limit of heights.
Theorems (in `Props/Origin.lean`): `C86_position`, `C86_silent`, `C86_forks`.

**C87 Stored blocks are what peers sent** - proved. Proved for every execution that leaves room below the uint32 limit of heights.
Theorems (in `Props/Origin.lean`): `C87_blocks`.

**C88 Nobody is dialled who was not named** - proved. Proved in full, also for the program with failing reads and the interleaved loader (C88_dialled_reads, C88_never_reads, C88_port_reads).
Theorems (in `Props/Ports.lean`, `Props/PortsReads.lean`): `C88_dialled`, `C88_never`, `C88_port`, `C88_dialled_reads`, `C88_never_reads`, `C88_port_reads`.

**C89 The history of an honest peer is loaded completely** - proved. assumes that no difference is left over from an earlier synchronisation (C49_leftover shows that it can be and that the claim then fails), that writes succeed and that answers come within 30 seconds; C89_faithful and C89_begins show where the assumptions on the store and the beginning come from
Theorems (in `Props/Honest.lean`): `C89_released`, `C89_rounds`, `C89_can_finish`, `C89_begins`, `C89_faithful`.

**C90 Orderly shutdown** - proved. the exit itself is not always reached: C53
Theorems (in `Props/Shutdown.lean`): `C90_before`, `C90_exited`, `C90_order`, `C90_stopped`.

**C91 Concurrent calls take effect one after the other** - proved. a single access to the database is atomic (goleveldb); LogInitialStats with a number of heads fixed beforehand
Theorems (in `Props/Linear.lean`): `C91_serial`, `C91_registry_serial`, `C91_order`, `C91_store`, `C91_registry`, `C91_methods`, `C91_returns`, `C91_registry_returns`.

**C92 The loader is not disturbed in the middle of an event** - proved. The handlers are modelled as programs that make one call at a time; the messages they send are recorded at the end of the event. Releasing an honest peer early is possible at this level: C92_early_release, section 4 of DESIGN.md.
Theorems (in `Props/Fine.lean`): `C92_alone`, `C92_includes`, `C92_quiet`, `C92_store`, `C92_crash`, `C92_goes_on`, `C92_origin`, `C92_requests`, `C92_watched`, `C92_early_release`.

**C93 No connection is lost sight of** - partial. Disagreement: of two connections of one address the first is dropped from the list and never closed (C93_lost); the other ways are C67_replaced, C78_own_address, C78_unparsable and C83_lost. C93_accounted_partial shows that there are no further ones.
Theorems (in `Props/Conns.lean`): `C93_listed`, `C93_accounted_partial`, `C93_closed`, `C93_lost`.

**C94 The program can be stopped at any moment and started again** - partial. Disagreement: after a single block with a timestamp of 2^63 - 1 or more on the head that a peer is on, LogInitialStats panics at every later start and nothing ever changes again (C94_never_again, C94_stuck). C94_start_exact gives the exact condition; C94_starts_partial is the claim without such blocks. C94_peers: what the database of the peers contains after the process has been killed, also in the middle of AppendAddresses. Trusted of goleveldb: batches are kept or lost as a whole, and opening makes the contents durable.
Theorems (in `Props/Lives.lean`): `C94_reopens`, `C94_kept`, `C94_start_exact`, `C94_starts_partial`, `C94_stuck`, `C94_peers`, `C94_never_again`, `C94_redial`.

**C95 What is shown about a peer does not depend on what the others say** - partial. Disagreement: ids are not checked against contents. A micro-block announcement with the id of a coming block as its total id stores that id with the height, score and parent of the block it refers to; the peer that then sends the true block is shown with the wrong height, score and chain for ever (C95_liar). C95_isolated_partial is the claim when nobody lies.
Theorems (in `Props/Genuine.lean`): `C95_store`, `C95_program`, `C95_lives`, `C95_ancestors`, `C95_last`, `C95_agree`, `C95_isolated_partial`, `C95_liar`.

**C96 The reports show the forks that there are** - proved. Stated against what the ids stand for, not against the store. Whether a report is answered at all is the subject of C13, C14 and C56; that messages must not lie is the subject of C95.
Theorems (in `Props/TrueForks.lean`): `C96_report`, `C96_detected`, `C96_best`, `C96_fork`, `C96_program`.

**C97 What an honest peer has is loaded and shown** - proved. The property C89 for the whole program, from the messages to the reports: the distributor puts every block into the store before the loader sees it, and hands packages over through channels. The condition that the distributor does not hold an old list of ids of the peer when the synchronisation begins is needed: such a list would be taken for the answer. Reports leave out the addresses named in C08 (the invalid one, IPv6 all ones, and those with a zone).
Theorems (in `Props/Whole.lean`): `C97_ends`, `C97_can_finish`, `C97_begins`, `C97_truthful`, `C97_reported`.

**C98 A question about one block or one peer is answered rightly or not at all** - partial. C98_queries: each of the queries on any store under any set of unreadable keys is the answer of a good disk or the read error. C98_score_partial: LeashScore is right or an error when no block with the zero id is stored; C98_score_wrong is the counterexample otherwise (linkage.go:163-178 goes on with the zero id after an error).
Theorems (in `Props/Reads.lean`): `C98_queries`, `C98_score_partial`, `C98_score_wrong`.

**C99 A report about all peers is complete or says that it is not** - partial. False: C99_wrong (a walk that stops early gives a fork report without the best chain, which calls another one the longest, and no error). C99_leashes and C99_heads give the lists exactly; C99_reports_partial: a report is an error or that of a reachable store with the same blocks without the missed peers; C99_none_missed: right or an error if no leash is missed.
Theorems (in `Props/Reads.lean`): `C99_leashes`, `C99_heads`, `C99_reports_partial`, `C99_none_missed`, `C99_wrong`.

**C100 Failed reads do not spoil the store** - proved. C100_call and C100_history, for any store and any faults that may differ from call to call; C100_reachable brings all other properties to such histories; C100_start: opening a store whose counter cannot be read fails without writing.
Theorems (in `Props/Reads.lean`): `C100_call`, `C100_history`, `C100_reachable`, `C100_start`.

**C101 The lists of peers are complete or say that they are not** - partial. C101_peer and C101_connections: right or an error. C101_lists_partial: the lists are those of a good disk without the missed entries; C101_wrong: no error says so; C101_answer_partial: the same of the lists sent to other peers, after every execution with failing reads. C101_damaged: a record that does not decode makes the lists and the choice of addresses an error, never a shorter list.
Theorems (in `Props/ReadsPeers.lean`, `Props/SharedReads.lean`): `C101_peer`, `C101_connections`, `C101_lists_partial`, `C101_damaged`, `C101_wrong`, `C101_answer_partial`.

**C102 Failed reads do not spoil the registry of peers** - partial. C102_call_partial, C102_append, C102_take for single calls, C102_history: the registry stays reachable, so all other properties of registries hold after failed reads too. C102_never_dialled and C102_dead_connection: what a failed read in UnregisterPeer costs (registry.go:164-170 returns before the deletions).
Theorems (in `Props/ReadsPeers.lean`): `C102_call_partial`, `C102_append`, `C102_take`, `C102_history`, `C102_never_dialled`, `C102_dead_connection`.

**C103 A failed read costs at most the current synchronisation** - partial. C103_good: on a disk that reads well the runs are those of C92; C103_store, C103_crash, C103_origin, C103_requests, C103_watched: what C92 says holds whatever reads fail; C103_cause: the only states in which the loader waits without expecting an answer, and the failed calls that lead there; C103_release_partial: a late tick ends the synchronisation unless one of three kinds of calls failed; C103_call: a call does what it does on a good disk, or returns an error and changes nothing; C103_lookup: which blocks are requested after a list of ids, and that nothing is requested when a lookup fails; C103_chosen: with which peer a synchronisation begins, and why none does; C103_stuck: in these states the loader never does anything again; C103_wrong: three runs with one failed read each that end there.
Theorems (in `Props/ReadsLoader.lean`): `C103_good`, `C103_store`, `C103_call`, `C103_lookup`, `C103_crash`, `C103_origin`, `C103_requests`, `C103_watched`, `C103_cause`, `C103_release_partial`, `C103_chosen`, `C103_stuck`, `C103_wrong`.

**C104 A report is right, or the status says that it is not** - partial. C104_delivered: right or status 500 when iterations deliver everything, whatever reads of single records fail and whenever the databases are closed; C104_good: on good databases the handlers are those of the other properties; C104_closed: after the closing no answer has data; C104_forks_partial, C104_heads_partial, C104_leashes_partial, C104_peers_partial, C104_status_partial: exactly what is in the answers when iterations miss entries; C104_wrong: wrong answers with status 200.
Theorems (in `Props/ReadsReports.lean`): `C104_delivered`, `C104_forks_partial`, `C104_heads_partial`, `C104_leashes_partial`, `C104_peers_partial`, `C104_status_partial`, `C104_closed`, `C104_good`, `C104_wrong`.

**C105 The program goes on when the disk fails to read** - proved. C105_unreadable: the events that an unreadable record or id spoils; C105_signal: the services run until the signal and the ticker only while it is on; C105_loader: the loader inside the program is that of C103; C105_program: the executions of the coarse program on good disks are among those considered; C105_store, C105_channels, C105_origin: what is stored, passed on, and by whom it was sent; C105_event: an event of another goroutine than the loader is that of a good disk or one of the listed spoilt ones (the steps of the loader are C103); C105_dropped: witness of a requested block that is lost; C105_crash: every panic is one that happens on a good disk too; C105_exit: after the signal the program ends or the loader panics as in C105_crash, with the exceptions of a good disk.
Theorems (in `Props/Faulty.lean`): `C105_program`, `C105_store`, `C105_loader`, `C105_channels`, `C105_origin`, `C105_event`, `C105_dropped`, `C105_unreadable`, `C105_signal`, `C105_crash`, `C105_exit`.

**C106 The history of an honest peer is loaded while other goroutines work** - proved. The conditions on the peer are those of C89. The condition on the position of the peer in the middle of an event is needed: C92_early_release shows what happens when a second copy of an older block is stored at that moment. C106_others says which calls meet it; C106_begins shows that the synchronisations started by the timer begin as assumed, whatever others do in the meantime.
Theorems (in `Props/Among.lean`): `C106_released`, `C106_rounds`, `C106_can_finish`, `C106_begins`, `C106_others`.

**C107 What an honest peer has is loaded and shown while the goroutines work side by side** - proved. During the synchronisation the reads of the loader succeed; C103_release_partial says what one that fails can do. Blocks that the peer itself sends while the loader handles an event must be of its history and not before its position, as in C106. Nothing is asked of the other peers but that they do not send false blocks of this history.
Theorems (in `Props/Side.lean`): `C107_ends`, `C107_rounds`, `C107_can_finish`, `C107_begins`, `C107_truthful`, `C107_reported`.

**C108 The loader waits only for what a peer owes** - partial. C108_partial and C108_failed_partial assume that no call of the loader returned an error and that no list of ids from the peer contained an id twice; C108_wrong shows for both that the claim fails without.
Theorems (in `Props/Owed.lean`): `C108_partial`, `C108_failed_partial`, `C108_wrong`, `C108_refused`.

**C109 An honest peer that has answered everything has been loaded completely** - proved. C109_settled is the claim for the store, C109_reported goes on to the report of the forks; C109_opens shows that every synchronisation started by the timer opens with such a request.
Theorems (in `Props/Settled.lean`): `C109_settled`, `C109_opens`, `C109_reported`.

**C110 An honest peer that answers all requests is loaded in the end** - proved. C110_ends is the claim for the store, C110_reported goes on to the report of the forks.
Theorems (in `Props/Endless.lean`): `C110_ends`, `C110_reported`.

**C111 The position of a peer is moved only by this peer, while the goroutines work side by side** - proved. C111_moves is the claim for one event; C111_still, C111_position and C111_silent follow for executions.
Theorems (in `Props/Moves.lean`): `C111_moves`, `C111_still`, `C111_position`, `C111_silent`.

**C112 In a calm network all connected peers are up to date in the end, and stay so** - proved. C112_settles is the claim; C112_reported adds what the reports show. A difference left over from an earlier failed synchronisation is allowed: it can cut the first synchronisation short, not the later ones. The number of calls that insert blocks has to stay below the room of the store (heights are 32 bit), as in all theorems about executions.
Theorems (in `Props/Calm.lean`): `C112_settles`, `C112_reported`.

**C113 In a calm network the reports show all forks between the connected peers in the end, and no other ones** - proved. C113_report is the claim about the entries, C113_fork and C113_quiet are the two consequences (no fork is missed, no alarm is false), C113_answers says when the report is given (the limit comes from the search for the common ancestor, see C17).
Theorems (in `Props/Detected.lean`): `C113_report`, `C113_answers`, `C113_fork`, `C113_quiet`.

**C114 The program listens for connections exactly if it is configured to** - proved. C114_listens and C114_only are the claim; C114_mistake is the part about a declared address that is none. Found by an automated change of a constant in the model (see seeded/LOG.jsonl) that no earlier theorem noticed.
Theorems (in `Props/Listens.lean`): `C114_listens`, `C114_only`, `C114_mistake`.

**C115 No peer keeps the loader to itself** - partial. Partial: the code violates the property. C115_kept and C115_starves show that a peer that announced a high score and answers with one known id, by turns of two stored blocks, keeps the loader for ever; C115_example is a concrete instance with a second lagging peer. C115_batches_partial and C115_bound_partial prove the bound for synchronisations in which the score of the position does not go down; missing are those in which it does.
Theorems (in `Props/Hog.lean`): `C115_kept`, `C115_starves`, `C115_batches_partial`, `C115_bound_partial`, `C115_example`, `C115_climbing`.

**C116 Every path of the API leads to its report** - proved. C116_routes and C116_unique: the router against a table of texts; C116_methods, C116_only: nothing else gets a report; C116_asked and C116_paths: the ten reports by name. net/url and the router chi are modelled from their documented behaviour (Services/Routes.lean), not read in /repo.
Theorems (in `Props/Routes.lean`): `C116_routes`, `C116_unique`, `C116_methods`, `C116_asked`, `C116_paths`, `C116_only`.

**C117 Addresses in requests may be percent-encoded** - partial. Partial: the code violates the property for addresses of version 6. C117_exact says for every text what the handler gets; C117_refused and C117_witness: an encoded colon is never decoded, and the request is answered with 400 for a peer that is known; C117_encoded_partial covers addresses without a colon. Queries decode as they should: C117_query, C117_query_plain; C117_forks: the first peers value of the query is the one the fork reports use.
Theorems (in `Props/Routes.lean`): `C117_exact`, `C117_encoded_partial`, `C117_refused`, `C117_witness`, `C117_query`, `C117_forks`, `C117_query_plain`.

**C118 The exit status tells whether the program worked** - partial. Partial: the code violates the property when the standard error cannot be written: main returns, and the status is 0 for every refused command line (C118_unseen, C118_witness). C118_partial: with a writable standard error, status 0 means help or an orderly stop after the signal. C118_orderly is the other direction. C118_refused, C118_told, C118_databases: what keeps the program from starting is told with status 1. C118_api, C118_statuses: the ends of a program that has started.
Theorems (in `Props/Exit.lean`): `C118_partial`, `C118_orderly`, `C118_refused`, `C118_told`, `C118_databases`, `C118_unseen`, `C118_api`, `C118_statuses`, `C118_witness`.

**C119 The same question gets the same answer while nothing changes** - partial. Partial: the code violates the property when two leashed blocks are tied for the best one: C119_witness (the numbers of short and long forks change from call to call) and C119_panics (one call panics, the next one answers). C119_partial, C119_responses, C119_status: the property holds when one block is best; C119_order: the order is the same too when no two blocks tie. C119_core, C119_generators, C119_leashes: what holds whatever the ties.
Theorems (in `Props/Stable.lean`): `C119_partial`, `C119_order`, `C119_core`, `C119_generators`, `C119_responses`, `C119_leashes`, `C119_status`, `C119_witness`, `C119_panics`.

**C120 The database of blocks grows only with new blocks and new peers** - proved. C120_size: exact number of records; C120_call: what one call may add; C120_reopen; C120_bound: whatever is repeated; C120_links: the records themselves do not grow. The number of records is counted, not the bytes on the disk, which goleveldb decides.
Theorems (in `Props/Size.lean`): `C120_size`, `C120_call`, `C120_reopen`, `C120_bound`, `C120_links`.

**C121 The database of peers has one record for every peer heard of and nothing else** - proved. C121_size, C121_call, C121_bound: the size and what it depends on; C121_unlimited, C121_flood: there is no limit besides, so one peer can fill the database with addresses (design, section 4); C121_program, C121_never_lost: where the records come from and that none is lost, in the whole program with failing reads and the interleaved loader.
Theorems (in `Props/PeersSize.lean`, `Props/Records.lean`): `C121_size`, `C121_bound`, `C121_call`, `C121_unlimited`, `C121_flood`, `C121_program`, `C121_never_lost`.

**C122 The text of a report can be read back as the report** - proved. C122_chains, C122_peers, C122_status: the text is read back; C122_any: one line, UTF-8, no markup; C122_peer_fields, C122_fork_fields, C122_other_fields: the names of the fields; C122_forks_have_peers, C122_missed: when a fork has null for its score and its peers; C122_forks_apart, C122_others_apart, C122_peers_apart: nothing is lost; C122_empty; C122_other_names: why names have to be UTF-8. The texts of times, IPv6 addresses and versions are parameters with stated laws.
Theorems (in `Props/Json.lean`): `C122_chains`, `C122_peers`, `C122_status`, `C122_any`, `C122_peer_fields`, `C122_fork_fields`, `C122_forks_have_peers`, `C122_missed`, `C122_other_fields`, `C122_forks_apart`, `C122_others_apart`, `C122_peers_apart`, `C122_empty`, `C122_other_names`.

**C123 An address that a report shows can be used in a request** - partial. False for the reports about peers, which show each address with a port: such a text is refused with 400 (C123_ports). For the reports about forks and leashes: C123_read_back, C123_one_peer, C123_reports, C123_fork_partial, C123_query. C123_lawful and C123_zone discharge the laws about addresses that C122 and C117 take as hypotheses. The hypothesis of C123_query about spaces says that unicode.IsSpace is false for digits, the letters a to f, dot and colon.
Theorems (in `Props/Netip.lean`): `C123_read_back`, `C123_one_peer`, `C123_reports`, `C123_fork_partial`, `C123_query`, `C123_ports`, `C123_lawful`, `C123_zone`.

**C124 A time in a report stands for the very millisecond of the block** - proved. C124_read, C124_reports; C124_limits: the range of times; C124_seconds: how far the text is off for offsets with seconds; C124_lawful: the library as modelled (addresses and times) meets the hypotheses of C122, so that only the law about versions is left; C124_never: the zero time. The reader Rfc3339.read is in Services/TimesSpec.lean and shares nothing with the writer.
Theorems (in `Props/Times.lean`): `C124_read`, `C124_seconds`, `C124_limits`, `C124_lawful`, `C124_reports`, `C124_never`.

**C125 What is on disk about blocks is read back as it was stored** - proved. C125_read: the readers over bytes (Cbor/Chains.lean) give what the readers over records give; C125_write; C125_block, C125_link: single records; C125_distinct; C125_empty: nil and empty slices are read alike.
Theorems (in `Props/Cbor.lean`): `C125_read`, `C125_write`, `C125_block`, `C125_link`, `C125_distinct`, `C125_empty`.

**C126 What is on disk about peers is read back as it was stored, whatever they call themselves** - proved. C126_read, C126_write, C126_put; C126_name: exactly the UTF-8 names can be read back; C126_spoilt: what one other name would do; C126_version: the text of a version.
Theorems (in `Props/Cbor.lean`): `C126_read`, `C126_write`, `C126_name`, `C126_put`, `C126_spoilt`, `C126_version`.

**C127 The bytes on disk are bounded by what the peers talk about** - proved. C127_record, C127_blocks; C127_peers: with bounds on names and scores; C127_unlimited: there is no bound without one on scores. The sizes are those of keys and values as given to LevelDB; its own overhead, compression and log files are not modelled.
Theorems (in `Props/Disk.lean`): `C127_record`, `C127_blocks`, `C127_peers`, `C127_unlimited`.

**C128 Addresses mean the same after every detour through text** - proved. netip.ParseAddrPort, AddrPort.String, net.TCPAddr.String and NewTCPAddrFromString are spelled out in Services/AddrPort.lean; C128_seed proves what Services/Params.lean assumes of seeds, realOpts shows that the laws assumed of Opts hold for these functions, C128_dial is for every reachable registry, and C128_hostile is the negative result about MarkAsHostile.
Theorems (in `Props/AddrPort.lean`): `C128_connection`, `C128_one_text`, `C128_seed`, `C128_print`, `C128_bind`, `C128_declared`, `C128_peer`, `C128_dial`, `C128_hostile`.

**C129 The log names states and batches of blocks truly** - proved. The names are given in lists of their own, not by the table of positions; the count of C129_batch is stated on the requested ids and the received blocks. The short texts of ids are a parameter.
Theorems (in `Props/Names.lean`): `C129_names`, `C129_states`, `C129_apart`, `C129_batch`, `C129_total`.

**C130 The work for a block or a report grows with the number of peers and the logarithm of the height** - proved. Every function of chains/storage.go and chains/linkage.go on the way is written once more with a count of the records asked for (Verif/Chains/Work.lean); C130_same proves that the results are those of the functions without a count, for all databases. That the count itself is not too low is C130_lca, _put, _micro, _ids, _generators in terms of DecidedBy, which knows nothing of counting: as many keys decide the answer. For reports with an iteration over the leashes only the count is bounded. Records are counted, not time: what goleveldb does to find one is not modelled, and the sorting and the map in memory are not counted.
Theorems (in `?`): `C130_same`, `C130_lca`, `C130_put`, `C130_micro`, `C130_ids`, `C130_generators`, `C130_forks`, `C130_fork`, `C130_lcb`, `C130_sent`, `C130_ever`.

**C131 Loading the history of an honest peer requests only what is missing, and nothing twice** - proved. About the sessions of C89 (Session in Verif/Loading/Honest.lean: the peer answers honestly, all writes of the loader succeed, no tick comes too late, nobody stores false blocks of the history). A synchronisation that times out begins again and may request blocks again that were on their way; that is no part of one session.
Theorems (in `Props/Frugal.lean`): `C131_once`, `C131_missing`, `C131_messages`, `C131_nothing_new`.

**C132 Only missing blocks are requested, and none twice, while the other goroutines work** - proved. Over the model with single calls (C106), for every moment between two events as the beginning. Messages are recorded when the event that sends them has been handled.
Theorems (in `Props/FrugalAmong.lean`): `C132_once`, `C132_missing`, `C132_messages`, `C132_nothing_new`.

**C133 In the whole program only missing blocks are requested from an honest peer, and none twice** - proved. The invariant of C132 carried through the events of the whole program of C105 and C107.
Theorems (in `Props/FrugalSide.lean`): `C133_once`, `C133_missing`, `C133_nothing_new`, `C133_messages`, `C133_truthful`.

**C134 The messages of the loader are bounded by what it is told** - proved. The bounds are met by an execution in which a peer lists a block twice. Messages are recorded when the event that sends them has been handled.
Theorems (in `Props/Bill.lean`, `Props/BillSide.lean`): `C134_bill`, `C134_ticks`, `C134_times`, `C134_program`, `C134_silence`.

**C135 The program sends and closes nothing without a cause** - proved. That a message is sent at all when there is cause is C66 and C81; this property bounds the output from above. Closings of connections by the network library itself are not modelled.
Theorems (in `Props/Traffic.lean`): `C135_causes`, `C135_pings`, `C135_whom`, `C135_total`, `C135_quiet`.

**C136 Nothing is written to a connection after it was closed** - partial. Proved of pings and of the beginning of synchronisations with reads that do not fail, and of pings and the list of connections in the program with failing reads and the loader at work if the records can be read when connections break (C136_reads_partial, C136_listed_reads_partial); false of the beginning of a synchronisation when the connection breaks while the loader chooses (C136_begun_late); false of lists of peers and of a running synchronisation (C136_list, C136_loader), and of pings when a read fails (C136_failed_read).
Theorems (in `Props/Closed.lean`, `Props/ClosedReads.lean`): `C136_pings_partial`, `C136_begun_partial`, `C136_list`, `C136_loader`, `C136_failed_read`, `C136_reads_partial`, `C136_listed_reads_partial`, `C136_begun_late`.

**C137 No peer loses its connection by what others do or by a failing disk** - proved. Holds in the program with failing reads and the interleaved loader. What a failed dial of the same address costs is the finding of C83, what a second connection of the same address costs that of C93.
Theorems (in `Props/Kept.lean`): `C137_kept`, `C137_pinged`, `C137_open`, `C137_record`, `C137_listed`.

## 6. Axioms of the property theorems

Output of `#print axioms` for every theorem of `MANIFEST.json`, grouped.

* propext, Classical.choice, Quot.sound (412): `C103_cause`, `C103_chosen`, `C103_crash`, `C103_origin`, `C103_release_partial`, `C103_requests`, `C103_store`, `C103_stuck`, `C103_watched`, `C103_wrong`, `C106_begins`, `C106_can_finish`, `C106_others`, `C106_released`, `C106_rounds`, `C108_failed_partial`, `C108_partial`, `C115_batches_partial`, `C115_bound_partial`, `C115_kept`, `C115_starves`, `C131_messages`, `C131_missing`, `C131_nothing_new`, `C131_once`, `C132_messages`, `C132_missing`, `C132_nothing_new`, `C132_once`, `C134_bill`, `C134_ticks`, `C134_times`, `C40_last`, `C40_order`, `C40_ready_iff`, `C41_partial`, `C42_known`, `C42_requested`, `C43_complete`, `C43_refused`, `C43_waiting`, `C44_partial`, `C45_iff`, `C45_resting`, `C45_timestamp`, `C46_blocks_partial`, `C46_ids_partial`, `C46_stuck`, `C46_ticks_partial`, `C47_unexpected`, `C48_restart_partial`, `C48_start`, `C49_partial`, `C49_remembered_partial`, `C50_fair`, `C50_nobody`, `C50_one`, `C50_only`, `C50_some`, `C51_covered`, `C51_history`, `C51_step`, `C61_kept`, `C61_serving`, `C89_begins`, `C89_can_finish`, `C89_faithful`, `C89_released`, `C89_rounds`, `C92_crash`, `C92_goes_on`, `C92_origin`, `C92_requests`, `C92_store`, `C92_watched`, `C101_lists_partial`, `C102_history`, `C102_never_dialled`, `C102_take`, `C121_bound`, `C121_call`, `C121_flood`, `C121_size`, `C121_unlimited`, `C29_available`, `C30_not_twice`, `C31_suggest`, `C31_unregister`, `C32_append`, `C33_managed_partial`, `C33_not_dialled`, `C33_stays_hostile_partial`, `C34_cycle_partial`, `C34_same_minor_sticks`, `C35_connections`, `C36_ipv4`, `C37_refused`, `C37_update`, `C38_not_appended`, `C38_not_connected`, `C38_not_dialled`, `C39_becomes`, `C39_list`, `C59_broadcast`, `C75_again`, `C75_write_failed`, `C76_announced`, `C01_blocks_permanent`, `C02_accept_iff`, `C02_accepted_stored`, `C02_orphan_refused`, `C02_refused_unchanged`, `C03_C04_new_block`, `C03_block_readback`, `C03_genesis`, `C03_height_is_path_length`, `C03_path_exists`, `C04_score_monotone`, `C05_known_block`, `C05_known_micro`, `C06_leash_is_last_success`, `C06_leash_with_lost_acks`, `C07_isolation`, `C08_leashes_partial`, `C09_no_dangling`, `C104_closed`, `C104_forks_partial`, `C104_heads_partial`, `C104_leashes_partial`, `C104_peers_partial`, `C104_status_partial`, `C10_heads`, `C10_heads_grow`, `C116_asked`, `C116_methods`, `C116_only`, `C116_paths`, `C116_routes`, `C116_unique`, `C117_encoded_partial`, `C117_exact`, `C117_forks`, `C117_query`, `C117_query_plain`, `C117_refused`, `C117_witness`, `C118_api`, `C118_databases`, `C118_orderly`, `C118_partial`, `C118_refused`, `C118_statuses`, `C118_told`, `C118_unseen`, `C118_witness`, `C119_core`, `C119_generators`, `C119_leashes`, `C119_order`, `C119_partial`, `C119_responses`, `C119_status`, `C11_active_heads`, `C120_bound`, `C120_call`, `C120_links`, `C120_reopen`, `C120_size`, `C122_chains`, `C122_empty`, `C122_fork_fields`, `C122_forks_apart`, `C122_missed`, `C122_other_fields`, `C122_others_apart`, `C122_peer_fields`, `C122_peers`, `C122_peers_apart`, `C122_status`, `C123_fork_partial`, `C123_lawful`, `C123_one_peer`, `C123_ports`, `C123_query`, `C123_read_back`, `C123_reports`, `C124_lawful`, `C124_limits`, `C124_never`, `C124_read`, `C124_reports`, `C124_seconds`, `C125_block`, `C125_distinct`, `C125_empty`, `C125_link`, `C125_read`, `C126_name`, `C126_put`, `C126_read`, `C126_spoilt`, `C127_blocks`, `C127_peers`, `C127_record`, `C127_unlimited`, `C128_bind`, `C128_connection`, `C128_declared`, `C128_dial`, `C128_hostile`, `C128_one_text`, `C128_peer`, `C128_print`, `C128_seed`, `C129_apart`, `C129_batch`, `C129_names`, `C129_states`, `C129_total`, `C12_lastIDs`, `C12_nonempty`, `C12_stops_at_genesis`, `C12_unknown`, `C130_ever`, `C130_fork`, `C130_forks`, `C130_lca`, `C130_lcb`, `C130_micro`, `C130_put`, `C130_sent`, `C13_lca_exact`, `C13_lca_partial`, `C13_panics_at_every_height`, `C13_shapes`, `C13_unique`, `C14_answers`, `C14_lcb_partial`, `C15_C16_C17_answers`, `C15_each_peer_once`, `C15_partition`, `C16_first_is_best`, `C16_ranked`, `C17_lengths`, `C18_no_wrong_report_partial`, `C18_panics`, `C19_fork_agrees`, `C19_fork_answers`, `C21_answers`, `C21_generators`, `C22_micro_accept_iff`, `C22_micro_inherits`, `C22_micro_refused`, `C23_putBlock_atomic`, `C23_putBlock_resumable`, `C23_putMicro_atomic`, `C23_putMicro_resumable`, `C24_first_open_resumable`, `C24_fresh`, `C24_reopen`, `C25_numbers`, `C26_order`, `C26_same_blocks`, `C27_partial`, `C28_best_chosen`, `C28_longest_flag`, `C54_armed_partial`, `C54_fires_partial`, `C55_everyone`, `C55_only_connected_partial`, `C55_reports_the_absent`, `C56_answers_partial`, `C56_bad_numbers`, `C56_fork_partial`, `C56_generators`, `C56_generators_answers_partial`, `C56_generators_refused`, `C56_number`, `C56_refused`, `C56_year`, `C57_calls_partial`, `C57_readers`, `C58_panics`, `C60_fresh`, `C60_kept`, `C60_latest`, `C62_exclusive`, `C63_connections`, `C64_order`, `C65_block`, `C66_peers`, `C67_broken_partial`, `C68_ignored`, `C68_score`, `C69_survives_partial`, `C70_answers_partial`, `C70_heads`, `C71_answers_partial`, `C71_leashes`, `C72_no_forks`, `C72_status_partial`, `C73_peers`, `C74_ipv6`, `C74_seeds_partial`, `C77_joins`, `C77_record`, `C77_refused`, `C78_closed_partial`, `C79_addresses`, `C80_micro`, `C82_connections`, `C82_friendly`, `C82_peers`, `C83_failed_partial`, `C84_connections`, `C84_no_crash`, `C84_versions`, `C85_mark`, `C85_marked_partial`, `C86_forks`, `C86_position`, `C86_silent`, `C87_blocks`, `C88_dialled`, `C88_never`, `C88_port`, `C90_exited`, `C91_order`, `C91_registry`, `C91_registry_returns`, `C91_registry_serial`, `C91_returns`, `C91_serial`, `C91_store`, `C93_accounted_partial`, `C93_closed`, `C93_listed`, `C94_kept`, `C94_never_again`, `C94_redial`, `C94_reopens`, `C94_start_exact`, `C94_starts_partial`, `C95_agree`, `C95_ancestors`, `C95_isolated_partial`, `C95_last`, `C95_lives`, `C95_program`, `C95_store`, `C96_best`, `C96_detected`, `C96_fork`, `C96_program`, `C96_report`, `C97_begins`, `C97_can_finish`, `C97_ends`, `C97_reported`, `C97_truthful`, `C99_heads`, `C99_leashes`, `C99_none_missed`, `C99_reports_partial`, `C136_begun_partial`, `C136_pings_partial`, `C101_answer_partial`, `C105_crash`, `C105_event`, `C105_origin`, `C105_signal`, `C105_store`, `C107_begins`, `C107_can_finish`, `C107_ends`, `C107_reported`, `C107_rounds`, `C107_truthful`, `C109_opens`, `C109_reported`, `C109_settled`, `C110_ends`, `C110_reported`, `C111_moves`, `C111_position`, `C111_silent`, `C111_still`, `C112_reported`, `C112_settles`, `C113_answers`, `C113_fork`, `C113_quiet`, `C113_report`, `C121_never_lost`, `C121_program`, `C133_messages`, `C133_missing`, `C133_nothing_new`, `C133_once`, `C133_truthful`, `C134_program`, `C134_silence`, `C135_quiet`, `C135_total`, `C136_listed_reads_partial`, `C136_reads_partial`, `C137_listed`, `C137_open`, `C137_record`, `C88_dialled_reads`, `C88_never_reads`, `C88_port_reads`.
* propext, Quot.sound (94): `C103_good`, `C108_refused`, `C108_wrong`, `C115_climbing`, `C115_example`, `C40_contents`, `C40_unrequested`, `C41_duplicate`, `C44_back`, `C44_stale`, `C46_one_peer`, `C48_crash`, `C49_leftover`, `C92_alone`, `C92_early_release`, `C92_includes`, `C92_quiet`, `C101_wrong`, `C102_append`, `C102_call_partial`, `C102_dead_connection`, `C35_unmanaged`, `C100_reachable`, `C104_delivered`, `C104_good`, `C104_wrong`, `C119_panics`, `C119_witness`, `C122_any`, `C122_forks_have_peers`, `C126_version`, `C130_generators`, `C130_ids`, `C130_same`, `C14_panics`, `C18_witness`, `C19_tie`, `C20_stats`, `C20_stats_fails`, `C25_keys_injective`, `C26_same_reports`, `C52_filter`, `C53_deadlock`, `C53_exit_partial`, `C53_no_listener`, `C53_steps_partial`, `C53_stuck`, `C54_stops`, `C55_request`, `C56_panics`, `C56_year_witness`, `C56_zone`, `C58_accepts_partial`, `C58_refuses`, `C58_silent`, `C64_delivered`, `C64_ids`, `C64_taken`, `C67_replaced`, `C69_app_name`, `C69_base_target`, `C70_year`, `C71_year`, `C78_own_address`, `C78_unparsable`, `C81_ping`, `C83_lost`, `C85_not_marked`, `C90_before`, `C90_order`, `C90_stopped`, `C91_methods`, `C93_lost`, `C94_peers`, `C95_liar`, `C99_wrong`, `C114_listens`, `C114_mistake`, `C114_only`, `C136_failed_read`, `C136_list`, `C136_loader`, `C105_channels`, `C105_dropped`, `C105_exit`, `C105_loader`, `C105_program`, `C105_unreadable`, `C135_causes`, `C135_pings`, `C135_whom`, `C136_begun_late`, `C137_kept`, `C137_pinged`.
* propext (40): `C103_call`, `C103_lookup`, `C47_empty`, `C47_inactive`, `C47_others`, `C101_connections`, `C101_damaged`, `C101_peer`, `C31_rounding`, `C33_no_version`, `C33_revived`, `C36_damaged`, `C36_ipv6_alias`, `C38_not_registered`, `C07_zones_share`, `C08_missed`, `C09_condition_needed`, `C100_call`, `C100_history`, `C100_start`, `C122_other_names`, `C123_zone`, `C125_write`, `C126_write`, `C13_panics`, `C25_addresses`, `C26_micro_or_block`, `C27_panics`, `C27_poisons`, `C52_lossless`, `C52_table`, `C53_crash`, `C55_bad_request`, `C57_deadlock`, `C65_undecodable`, `C80_unusable`, `C94_stuck`, `C98_queries`, `C98_score_partial`, `C98_score_wrong`.
* none (1): `C07_told_apart`.

## 7. Which functions are modelled

Generated from the citations in the model: a function counts as modelled
when a comment in the model cites its lines.

* `api/api.go`: modelled: NewAPI, API.Run, API.Shutdown, API.runServer, API.routes, API.status, API.peers, API.friendly, API.connections, API.heads, API.leashes, API.forks, API.activeForks, API.fork, API.forkGenerators, getPeers. Not modelled: Logger.
* `api/entities.go`: modelled: byScoreAndPeersDesc.Less. Not modelled: byScoreAndPeersDesc.Len, byScoreAndPeersDesc.Swap.
* `chains/entities.go`: modelled: byScoreAndPeersDesc.Less, byBlocksCountDesc.Less. Not modelled: Head.String, byScoreAndPeersDesc.Len, byScoreAndPeersDesc.Swap, byBlocksCountDesc.Len, byBlocksCountDesc.Swap.
* `chains/linkage.go`: modelled: NewLinkage, Linkage.PutBlock, Linkage.PutMicroBlock, Linkage.HasLeash, Linkage.Leash, Linkage.LeashScore, Linkage.Heads, Linkage.ActiveHeads, Linkage.LastIDs, Linkage.HasBlock, Linkage.Block, Linkage.MoveLeash, Linkage.Leashes, Linkage.LogInitialStats, Linkage.Stats, Linkage.LCB, Linkage.Forks, Linkage.Fork, Linkage.ForkGenerators, Linkage.activeHeads, Linkage.hasBlock, Linkage.block, safeTimestamp, Linkage.forks. Not modelled: Linkage.Close.
* `chains/storage.go`: modelled: newStorage, storage.initialize, storage.block, storage.hasBlock, storage.putProtoBlock, storage.putMicroBlock, storage.getAncestors, storage.getBlocks, storage.lca, storage.fastBackwardFarthest, storage.leash, storage.updateLeash, storage.leashes, storage.heads, storage.getCounter, storage.putCounter, storage.getNumOfBlockID, storage.putID, storage.putNewLinkForBlock, storage.putBlock, storage.putLink, storage.getBlockByID, storage.getBlock, storage.getLink, storage.getLinkByID, storage.getLeash, storage.putLeash, storage.putHead, storage.putNewHead, storage.putNum, storage.getHeadByBlockNum, storage.getHeads. Not modelled: storage.close.
* `chains/storage_entities.go`: modelled: idKeyBytes, numKeyBytes, numKeyFromBytes, addrKeyBytes, addrKeyFromBytes, newBlock. 
* `chains/utils.go`: modelled: calculateScore, calculateCumulativeScore. 
* `connection_manager.go`: modelled: NewConnectionManager, ConnectionManager.Accept, ConnectionManager.Connect, ConnectionManager.skipFunc. 
* `distributor.go`: modelled: NewDistributor, Distributor.Shutdown, Distributor.runLoop, Distributor.pingConnections, Distributor.handleInfoMessage, Distributor.handleConnected, Distributor.handleInternalError, Distributor.handleMessage, Distributor.handleScoreMessage, Distributor.handleBlockMessage, Distributor.handleProtoBlockMessage, Distributor.handleBlock, Distributor.handlePeersMessage, Distributor.handleGetPeersMessage, Distributor.handleSignaturesMessage, Distributor.handleBlockIDsMessage, Distributor.handleMicroBlockInvMessage. Not modelled: Distributor.Run, Distributor.IDsCh, Distributor.BlockCh.
* `forkdetector.go`: modelled: main, run, capitalize. 
* `listener.go`: modelled: NewListener, Listener.Run, Listener.Shutdown, Listener.run. 
* `loading/event_string.go`: modelled: event.String. Not modelled: _.
* `loading/loader.go`: modelled: failureCounter.inc, failureCounter.count, failureCounter.reset, NewLoader, Loader.Run, Loader.Shutdown, Loader.OK, Loader.Fail, Loader.loop, Loader.sync, Loader.continueSync, Loader.restartSync, Loader.tick, Loader.handleIDs, Loader.handleBlock, Loader.isLagging, Loader.resetLoadingPeer. 
* `loading/peer_loader.go`: modelled: newPeerLoader, peerLoader.configureIdleState, peerLoader.configureWaitingForIDs, peerLoader.configureWaitingForBlocksState, peerLoader.configureDoneState, peerLoader.start, peerLoader.restart, peerLoader.processIDs, peerLoader.processBlock, peerLoader.processTick, peerLoader.onTick, peerLoader.requestIDs, peerLoader.requestIDsFromLCA, peerLoader.requestBlocks, peerLoader.appendBlock, peerLoader.handleFailure, peerLoader.reportOK. 
* `loading/queue.go`: modelled: newQueue, queue.put, queue.ready, queue.rangeString, queue.lastReceived. 
* `loading/state_string.go`: modelled: state.String. Not modelled: _.
* `parameters.go`: modelled: newParameters, parseSeedPeers, parseVersions, checkFolder, checkBind, checkName, parseAddress. Not modelled: parameters.log.
* `peers/by_name.go`: modelled: ByName.Less. Not modelled: ByName.Len, ByName.Swap.
* `peers/peer.go`: modelled: Peer.TCPAddr, Peer.RequestBlockIDs, Peer.RequestBlock. Not modelled: Peer.String, Peer.ID, Peer.Send.
* `peers/registry.go`: modelled: NewRegistry, Registry.RegisterPeer, Registry.UpdatePeerScore, checkPort, Registry.UnregisterPeer, Registry.MarkAsHostile, Registry.Connections, Registry.AppendAddresses, Registry.Peer, Registry.Peers, Registry.FriendlyPeers, Registry.Addresses, Registry.TakeAvailableAddresses, Registry.Broadcast, newVersions, versions.bestVersion, versions.nextVersion. Not modelled: Registry.Close.
* `peers/state_string.go`: modelled: State.String. Not modelled: _.
* `peers/storage.go`: modelled: key.bytes, key.fromBytes, newStorage, storage.peer, storage.putPeer, storage.peers, storage.hasPeer. Not modelled: storage.close.
* `peers/version_provider.go`: modelled: Registry.SuggestVersion. 
* `respawn.go`: modelled: NewRespawn, Respawn.Run, Respawn.Shutdown, Respawn.handleEvents, Respawn.establishConnections. 
* `service.go`: modelled: EmptyService.Run, EmptyService.Shutdown. 
* `version/version.go`: Not modelled: ForkDetectorVersion.
