{"id": "C01", "title": "Stored blocks are permanent and immutable", "statement": "Once HasBlock(id) answers true it answers true forever, and Block(id) keeps returning the same height, parent, score, timestamp and generator, whatever calls follow (PutBlock, PutMicroBlock, MoveLeash, reopening) and wherever a write fails or the process dies.", "quantifier": "every history of Linkage calls, every failure/crash point in it, every block id", "why_tests_cant": "a test can only follow a few histories; the claim ranges over every continuation and every crash point", "anchors": ["chains/linkage.go:PutBlock", "chains/linkage.go:PutMicroBlock", "chains/linkage.go:MoveLeash", "chains/linkage.go:Block", "chains/linkage.go:HasBlock", "chains/storage.go:putProtoBlock", "chains/storage.go:putMicroBlock", "chains/storage.go:putBlock", "chains/storage.go:putID"]}
{"id": "C02", "title": "PutBlock accepts exactly the blocks it can attach", "statement": "PutBlock(b) from a peer, for a block with a valid generator key and a base target within int64 (C27 is about the others), succeeds iff b is already stored or its parent is stored; an unknown block with unknown parent is answered with ErrParentNotFound and nothing at all changes (no block, no head, no leash).", "quantifier": "every reachable store, every block, every peer address", "why_tests_cant": "unit tests try one orphan block; the equivalence is over all stores and blocks", "anchors": ["chains/linkage.go:PutBlock", "chains/linkage.go:ErrParentNotFound", "chains/storage.go:hasBlock", "chains/storage.go:putProtoBlock"]}
{"id": "C03", "title": "Height is one more than the parent's height", "statement": "A newly accepted block reads back with Parent equal to the parent it named and Height = Height(parent)+1; the genesis block has height 1; so Height(id) is the number of blocks on the path from genesis to id.", "quantifier": "every reachable store, every accepted block", "why_tests_cant": "holds by induction along arbitrarily long chains and arbitrary interleavings of forks", "anchors": ["chains/storage.go:putProtoBlock", "chains/storage_entities.go:newBlock", "chains/storage.go:initialize"]}
{"id": "C04", "title": "Score is cumulative", "statement": "A newly accepted block's Score is its parent's Score plus floor(2^64 / BaseTarget) (plus 0 when BaseTarget is 0); hence score never decreases from ancestor to descendant.", "quantifier": "every reachable store, every accepted block, every base target", "why_tests_cant": "needs all base targets and arbitrarily long chains", "anchors": ["chains/utils.go:calculateScore", "chains/utils.go:calculateCumulativeScore", "chains/storage_entities.go:newBlock"]}
{"id": "C05", "title": "Re-announcing a known block only moves that peer's leash", "statement": "PutBlock / PutMicroBlock of an already stored id changes nothing except that the announcing peer is now leashed to that id; repeating the same announcement is idempotent.", "quantifier": "every reachable store, every stored id, every peer", "why_tests_cant": "frame property: nothing else changes, over all stores", "anchors": ["chains/linkage.go:PutBlock", "chains/linkage.go:PutMicroBlock", "chains/storage.go:updateLeash"]}
{"id": "C06", "title": "A peer's leash is the last block it was successfully moved to", "statement": "Leash(addr) returns the id of the most recent call (PutBlock, PutMicroBlock, MoveLeash) for addr that completed successfully, and the genesis id if there was none; HasLeash(addr) is true iff there was one.", "quantifier": "every history of calls by every set of peers, in every interleaving", "why_tests_cant": "a refinement statement over all call histories", "anchors": ["chains/linkage.go:Leash", "chains/linkage.go:HasLeash", "chains/linkage.go:MoveLeash", "chains/storage.go:getLeash", "chains/storage.go:putLeash", "chains/storage_entities.go:addrKeyBytes"]}
{"id": "C07", "title": "Peers do not interfere through leashes", "statement": "A call made on behalf of one peer never changes the leash of a different peer, for all addresses the store can tell apart.", "quantifier": "every reachable store, every pair of distinct addresses (IPv4, IPv6)", "why_tests_cant": "needs injectivity of the address encoding over all addresses", "anchors": ["chains/storage_entities.go:addrKeyBytes", "chains/storage.go:updateLeash", "chains/linkage.go:MoveLeash"]}
{"id": "C08", "title": "Leashes() lists every leashed peer exactly once", "statement": "Leashes() returns exactly the pairs (addr, Leash(addr)) for all peers with HasLeash(addr), each once, and nothing else.", "quantifier": "every reachable store, every address", "why_tests_cant": "the range scan must be complete for all 2^32+2^128 addresses; tests use two or three IPv4 addresses", "anchors": ["chains/storage.go:leashes", "chains/storage_entities.go:addrKeyFromBytes", "chains/linkage.go:Leashes"]}
{"id": "C09", "title": "Leashes never dangle", "statement": "Every leash points at a stored block, so Block(Leash(addr)) always resolves and fork reports never fail because of a dangling leash, provided MoveLeash is only called with stored ids (as the history loader does).", "quantifier": "every history (with crash points) in which MoveLeash targets stored ids", "why_tests_cant": "invariant over all histories and crash points", "anchors": ["chains/linkage.go:Leash", "chains/linkage.go:LeashScore", "chains/linkage.go:forks", "loading/peer_loader.go:requestBlocks"]}
{"id": "C10", "title": "Heads are exactly the blocks nothing was built on", "statement": "Heads() lists exactly the stored blocks that no later stored block extends (a block extends its parent, a micro-block extends its reference), each once, with distinct head numbers 1..N; the number of heads never decreases.", "quantifier": "every history of calls", "why_tests_cant": "requires the bookkeeping invariant between two indexes over all histories", "anchors": ["chains/storage.go:heads", "chains/storage.go:getHeads", "chains/storage.go:putHead", "chains/storage.go:putNewHead", "chains/linkage.go:Heads"]}
{"id": "C11", "title": "ActiveHeads is Heads restricted to leashed blocks", "statement": "ActiveHeads() returns precisely those entries of Heads(), in the same order, whose block is the leash of at least one peer.", "quantifier": "every reachable store", "why_tests_cant": "over all stores", "anchors": ["chains/linkage.go:ActiveHeads", "chains/linkage.go:activeHeads"]}
{"id": "C12", "title": "LastIDs walks the chain back from the given block", "statement": "For a stored id and count >= 1, LastIDs(id,count) returns id, its parent, its grandparent, ... : exactly min(count, Height(id)) ids, stopping at genesis; for an unknown id it is a not-found error. In particular it is never empty.", "quantifier": "every reachable store, every id, every count", "why_tests_cant": "all chain lengths and counts", "anchors": ["chains/linkage.go:LastIDs", "chains/storage.go:getAncestors"]}
{"id": "C13", "title": "Last common block of two forks is their lowest common ancestor", "statement": "For any two stored blocks the fork-comparison query returns the lowest common ancestor of the two in the parent tree: an ancestor of both such that every common ancestor is an ancestor of it. It always answers for stored blocks.", "quantifier": "every block tree, every pair of stored blocks", "why_tests_cant": "binary lifting over trees of unbounded height; tests cover a handful of small shapes", "anchors": ["chains/storage.go:lca", "chains/storage.go:fastBackwardFarthest", "chains/storage.go:putNewLinkForBlock"]}
{"id": "C14", "title": "LCB returns the last common block with the best chain", "statement": "LCB(peer) is the genesis id for an unleashed peer; otherwise it is the lowest common ancestor of the peer's leash and a best leashed block (maximal score, ties broken by number of peers), and the leash itself if the peer is on that best block.", "quantifier": "every reachable store, every peer, every map iteration order", "why_tests_cant": "quantifies over Go's random map order as well as all stores", "anchors": ["chains/linkage.go:LCB"]}
{"id": "C15", "title": "Forks partition the leashed peers", "statement": "Whenever Forks(filter) answers (which it does when somebody is selected, the selected leashes are on readable blocks and their chains can be compared), it has exactly one entry per distinct leashed block among the selected peers; each entry's peer list is exactly the selected peers leashed to that block, PeersCount is its length, every selected leashed peer occurs in exactly one entry; an empty filter selects everybody.", "quantifier": "every reachable store, every filter set, every map iteration order and sort behaviour", "why_tests_cant": "order nondeterminism and all stores", "anchors": ["chains/linkage.go:Forks", "chains/linkage.go:forks", "chains/entities.go:byScoreAndPeersDesc"]}
{"id": "C16", "title": "Forks are ranked and exactly one is the longest", "statement": "Whenever Forks answers, its entries are ordered by non-increasing score and then by non-increasing number of peers; exactly the first one is flagged Longest and no other entry has a larger score, or an equal score and more peers.", "quantifier": "every reachable store, every filter, every map order", "why_tests_cant": "sort.Sort is unstable and map order random: all outcomes must satisfy it", "anchors": ["chains/linkage.go:forks", "chains/entities.go:byScoreAndPeersDesc"]}
{"id": "C17", "title": "Fork length counts blocks since the last common block", "statement": "In every entry of every report of Forks, LastCommonBlock is the lowest common ancestor of the entry's head and the longest entry's head, and Length = Height(head) - Height(LastCommonBlock), never negative; the longest entry has Length 0 and LastCommonBlock = its head.", "quantifier": "every reachable store, every filter", "why_tests_cant": "all trees and leash configurations", "anchors": ["chains/linkage.go:forks", "chains/storage.go:lca"]}
{"id": "C18", "title": "Forks with nobody selected is an empty report", "statement": "When no selected peer has a leash (fresh start, or a filter naming only unknown peers) Forks and Stats return an empty report, not a failure.", "quantifier": "every reachable store, every filter", "why_tests_cant": "tests never call Forks; the boundary is over all filters", "anchors": ["chains/linkage.go:forks", "chains/linkage.go:Stats", "chains/linkage.go:Forks", "api/api.go:status"]}
{"id": "C19", "title": "Fork(peer) agrees with Forks", "statement": "For a leashed peer, Fork(peer) reports the head block, height, score, generator and peer set of the unique entry of Forks() that contains the peer; when the best entry is unique it also reports the same Longest flag, LastCommonBlock and Length.", "quantifier": "every reachable store, every leashed peer, every pair of map iteration orders", "why_tests_cant": "two independent traversals with independent random orders", "anchors": ["chains/linkage.go:Fork", "chains/linkage.go:forks"]}
{"id": "C20", "title": "Stats counts every fork once", "statement": "Stats().Short + Stats().Long is the number of entries of Forks(); an entry is Long iff its Length exceeds 5.", "quantifier": "every reachable store", "why_tests_cant": "over all stores and orders", "anchors": ["chains/linkage.go:Stats", "chains/linkage.go:longForkThreshold"]}
{"id": "C21", "title": "ForkGenerators counts generators of the last blocks", "statement": "For a stored id and count >= 0, ForkGenerators(id,count) lists every generator of the last min(count, Height) blocks ending at id exactly once with its exact number of blocks, in non-increasing order; the counts sum to min(count, Height).", "quantifier": "every reachable store, every id and count, every map order", "why_tests_cant": "all chains, counts and orders", "anchors": ["chains/linkage.go:ForkGenerators", "chains/storage.go:getBlocks", "chains/entities.go:byBlocksCountDesc"]}
{"id": "C22", "title": "Micro-blocks inherit from their reference", "statement": "An accepted micro-block reads back with the Height, Score, Timestamp, Generator and Parent of the block it references; an unknown reference gives ErrRefNotFound and a reference to genesis is rejected, in both cases without any change.", "quantifier": "every reachable store, every micro-block announcement", "why_tests_cant": "over all stores and announcements; no unit test covers PutMicroBlock", "anchors": ["chains/linkage.go:PutMicroBlock", "chains/storage.go:putMicroBlock"]}
{"id": "C23", "title": "Inserting a block is crash-atomic and resumable", "statement": "If a write fails or the process stops anywhere inside PutBlock / PutMicroBlock, the store afterwards is either unchanged or contains the complete block (record, chain link, head) without the leash move; re-announcing the block then yields exactly the store an undisturbed call would have produced.", "quantifier": "every reachable store, every block, every crash point, every history afterwards", "why_tests_cant": "crash points cannot be enumerated by unit tests", "anchors": ["chains/linkage.go:PutBlock", "chains/linkage.go:PutMicroBlock", "chains/storage.go:putProtoBlock", "chains/storage.go:updateLeash"]}
{"id": "C24", "title": "Reopening preserves everything", "statement": "Opening an existing store again with NewLinkage changes nothing: every query answers as before; a first open creates exactly the genesis block with height 1 and one head.", "quantifier": "every reachable store", "why_tests_cant": "over all stores", "anchors": ["chains/linkage.go:NewLinkage", "chains/storage.go:initialize"]}
{"id": "C25", "title": "Storage keys never collide", "statement": "Keys of different kinds (counters, blocks by number, ids, links, leashes, head indexes) never coincide, distinct logical keys of one kind have distinct encodings, and number keys sort in numeric order and decode to what was encoded.", "quantifier": "all 64-bit numbers, all 32/64-byte ids, all addresses, all prefixes", "why_tests_cant": "the key space is astronomically large", "anchors": ["chains/storage_entities.go:idKeyBytes", "chains/storage_entities.go:numKeyBytes", "chains/storage_entities.go:numKeyFromBytes", "chains/storage_entities.go:addrKeyBytes", "chains/storage_entities.go:addrKeyFromBytes", "chains/storage.go:getCounter"]}
{"id": "C26", "title": "The block tree does not depend on arrival order", "statement": "Two histories of PutBlock calls that both deliver the same set of blocks, every parent before its children, answer HasBlock, Block, LastIDs and the set of head blocks identically.", "quantifier": "every pair of parent-first orderings of every finite set of blocks, any peers", "why_tests_cant": "factorially many orders", "anchors": ["chains/linkage.go:PutBlock", "chains/storage.go:putProtoBlock", "chains/storage.go:putHead"]}
{"id": "C27", "title": "No block a peer sends can crash or poison the store", "statement": "PutBlock never panics, and every accepted block can be read back by Block, whatever Timestamp and BaseTarget the peer put in it.", "quantifier": "every block content a peer can send", "why_tests_cant": "adversarial inputs range over all 64-bit values", "anchors": ["chains/utils.go:calculateScore", "chains/linkage.go:safeTimestamp", "chains/linkage.go:block"]}
{"id": "C28", "title": "Best block selection maximises score then peers", "statement": "Whatever order Go iterates the leash map, the block chosen as 'longest' by Fork and LCB has maximal (score, number of peers) among all leashed blocks.", "quantifier": "every leash configuration, every iteration order", "why_tests_cant": "random map order", "anchors": ["chains/linkage.go:Fork", "chains/linkage.go:LCB"]}
{"id": "C29", "title": "Only eligible addresses are dialled", "statement": "TakeAvailableAddresses returns only stored, non-hostile addresses with a non-zero port, different from our own address, whose next attempt time has passed, that are neither connected nor pending; and it returns all of those.", "quantifier": "every reachable registry, every time", "why_tests_cant": "over all registries and clocks", "anchors": ["peers/registry.go:TakeAvailableAddresses"]}
{"id": "C30", "title": "An address is never dialled twice concurrently", "statement": "After TakeAvailableAddresses hands out an address it is not handed out again until that address has been registered, unregistered or marked hostile in between (within one run of the program; the pending set is not stored).", "quantifier": "every history of registry calls", "why_tests_cant": "all interleavings", "anchors": ["peers/registry.go:TakeAvailableAddresses", "peers/registry.go:RegisterPeer", "peers/registry.go:UnregisterPeer", "peers/registry.go:MarkAsHostile"]}
{"id": "C31", "title": "Failed or dropped peers back off", "statement": "After UnregisterPeer(addr) at time t, or a version suggestion to a not yet connected peer at time t, TakeAvailableAddresses does not return addr before t + 10 minutes (to the second) unless the peer registers in between.", "quantifier": "every registry, every time, every later history", "why_tests_cant": "all clocks and histories", "anchors": ["peers/registry.go:UnregisterPeer", "peers/version_provider.go:SuggestVersion", "peers/registry.go:delay"]}
{"id": "C32", "title": "AppendAddresses only adds unknown public IPv4 addresses", "statement": "AppendAddresses never changes an already known peer, never adds a loopback, non-IPv4 or own address, adds each new acceptable address once as Unknown with its port, and returns exactly the number of peers added.", "quantifier": "every registry, every address list (with duplicates and garbage)", "why_tests_cant": "all lists", "anchors": ["peers/registry.go:AppendAddresses", "peers/storage.go:hasPeer", "peers/storage.go:putPeer"]}
{"id": "C33", "title": "Hostile peers stay shut out", "statement": "Once a peer is stored as hostile it is never offered for dialling, SuggestVersion (consulted for every incoming and outgoing connection) refuses it, and no registry call turns it back into a non-hostile peer.", "quantifier": "every registry history after the peer became hostile", "why_tests_cant": "all later histories", "anchors": ["peers/registry.go:RegisterPeer", "peers/registry.go:MarkAsHostile", "peers/version_provider.go:SuggestVersion", "peers/registry.go:TakeAvailableAddresses"]}
{"id": "C34", "title": "Version suggestion cycles through all acceptable versions", "statement": "For a peer that never connected, successive SuggestVersion calls go through the configured versions from newest to oldest and start over, so every configured version is tried once in each round.", "quantifier": "every non-empty list of configured versions, every number of attempts", "why_tests_cant": "all lists and counts", "anchors": ["peers/registry.go:newVersions", "peers/registry.go:bestVersion", "peers/registry.go:nextVersion", "peers/version_provider.go:SuggestVersion"]}
{"id": "C35", "title": "Connections() always answers and lists the live connections", "statement": "Connections() never fails and lists exactly the peers registered and not yet unregistered, each once with its stored data and its live connection handle.", "quantifier": "every history of registry calls with arbitrary handshakes and write failures in which, as in ConnectionManager.Accept/Connect, a successful SuggestVersion(addr) precedes RegisterPeer(addr)", "why_tests_cant": "all histories and handshake contents", "anchors": ["peers/registry.go:Connections", "peers/registry.go:RegisterPeer", "peers/registry.go:UnregisterPeer"]}
{"id": "C36", "title": "The peer store holds only IPv4 peers", "statement": "Every peer returned by Peers, FriendlyPeers, Connections has an IPv4 address, so converting it to a TCP address cannot panic, and lookups return the address asked for.", "quantifier": "every history of registry calls with arbitrary addresses", "why_tests_cant": "all histories/addresses", "anchors": ["peers/storage.go:putPeer", "peers/storage.go:peer", "peers/storage.go:key", "peers/peer.go:TCPAddr"]}
{"id": "C37", "title": "Score updates touch only the score", "statement": "UpdatePeerScore(addr, s) on a known peer stores s and changes no other field and no other peer; on an unknown peer it is an error and changes nothing.", "quantifier": "every registry, address, score", "why_tests_cant": "frame property over all registries", "anchors": ["peers/registry.go:UpdatePeerScore"]}
{"id": "C38", "title": "We never connect to ourselves", "statement": "Our declared address is never registered as a connection, never added to the store by AppendAddresses and never handed out for dialling.", "quantifier": "every registry history", "why_tests_cant": "all histories", "anchors": ["peers/registry.go:RegisterPeer", "peers/registry.go:AppendAddresses", "peers/registry.go:TakeAvailableAddresses"]}
{"id": "C39", "title": "Friendly peers are the peers that have connected", "statement": "FriendlyPeers() returns exactly the stored peers whose state is Connected, a peer becomes Connected only through a successful RegisterPeer with matching network scheme, and the list is ordered by upper-cased name.", "quantifier": "every registry history", "why_tests_cant": "all histories", "anchors": ["peers/registry.go:FriendlyPeers", "peers/registry.go:Peers", "peers/by_name.go:ByName"]}
{"id": "C40", "title": "The download queue is ready exactly when every requested block arrived", "statement": "For a list of distinct requested ids, after any sequence of received blocks the queue is ready iff for every requested id a block with that id was received; blocks that were not requested never change it, and the order of arrival does not matter.", "quantifier": "every list of distinct ids, every sequence of blocks", "why_tests_cant": "all sequences and orders", "anchors": ["loading/queue.go:newQueue", "loading/queue.go:put", "loading/queue.go:ready"]}
{"id": "C41", "title": "A batch is always completable", "statement": "For any id list a peer answers with, the batch becomes ready once all its blocks have been received (also when the peer repeats an id).", "quantifier": "every id list, including duplicates", "why_tests_cant": "adversarial id lists", "anchors": ["loading/queue.go:put", "loading/queue.go:ready", "loading/peer_loader.go:requestBlocks"]}
{"id": "C42", "title": "Blocks are requested from the first unknown id on", "statement": "On receiving an id list the loader moves the peer's leash along the known prefix and requests exactly the ids from the first unknown one to the end, in order, each as given; if all are known it requests nothing and reports success.", "quantifier": "every id list, every store state", "why_tests_cant": "all lists and stores", "anchors": ["loading/peer_loader.go:requestBlocks"]}
{"id": "C43", "title": "Completed batches are applied in request order", "statement": "When the last missing block arrives all blocks of the batch are stored in the order of the id list (parents first), the peer's leash ends on the last one, and success is reported exactly once; nothing is stored before the batch is complete.", "quantifier": "every batch, every arrival order", "why_tests_cant": "all permutations of arrivals", "anchors": ["loading/peer_loader.go:appendBlock", "loading/queue.go:ready"]}
{"id": "C44", "title": "On timeout exactly the received prefix is applied", "statement": "When loading times out, exactly the longest received prefix of the batch currently being downloaded is stored, the peer's leash never moves back, and failure is reported.", "quantifier": "every batch, every set of received blocks, every previous loader history", "why_tests_cant": "all histories; depends on leftover state of earlier batches", "anchors": ["loading/peer_loader.go:handleFailure", "loading/peer_loader.go:onTick", "loading/queue.go:lastReceived"]}
{"id": "C45", "title": "Loading times out strictly after 30 seconds of silence", "statement": "A tick at time t fails the current wait iff t - (time of the last request) > 30s; ticks never fire a timeout when nothing is being waited for.", "quantifier": "every loader state and tick time", "why_tests_cant": "all times", "anchors": ["loading/peer_loader.go:onTick", "loading/peer_loader.go:timeoutDuration"]}
{"id": "C46", "title": "The history loader never gets stuck", "statement": "From every reachable loader state, if ticks keep coming and peers stay silent, the loader eventually releases the current peer, so that synchronisation with some peer can be started again.", "quantifier": "every history of loader events with arbitrary peer messages", "why_tests_cant": "liveness over all histories and adversarial messages", "anchors": ["loading/loader.go:sync", "loading/loader.go:OK", "loading/loader.go:Fail", "loading/peer_loader.go:handleFailure", "loading/peer_loader.go:appendBlock"]}
{"id": "C47", "title": "Only the peer being synchronised influences the loader", "statement": "Id lists and blocks from any other peer, empty id lists, and everything while no synchronisation runs, leave the loader and the store unchanged.", "quantifier": "every loader state, every message", "why_tests_cant": "all states and messages", "anchors": ["loading/loader.go:handleIDs", "loading/loader.go:handleBlock"]}
{"id": "C48", "title": "One id request per synchronisation step", "statement": "Starting a synchronisation sends exactly one id request to the chosen peer: starting at its leash normally, and at the last common block after 10 or more failures; it never sends both.", "quantifier": "every loader state with any failure count", "why_tests_cant": "all states", "anchors": ["loading/loader.go:sync", "loading/loader.go:restartSync", "loading/loader.go:continueSync", "loading/peer_loader.go:requestIDs", "loading/peer_loader.go:requestIDsFromLCA"]}
{"id": "C49", "title": "Loading continues only while it makes progress", "statement": "After a successful batch the loader continues with the same peer iff the peer's announced score still exceeds its leash score and the difference changed since the previous batch of the same synchronisation; otherwise it releases the peer.", "quantifier": "every state and score pair", "why_tests_cant": "all scores/histories", "anchors": ["loading/loader.go:OK", "loading/loader.go:isLagging", "loading/loader.go:resetLoadingPeer", "loading/loader.go:Fail"]}
{"id": "C50", "title": "Only lagging peers are synchronised", "statement": "A synchronisation is only started with a connected peer that announced a score greater than its leash score, and if such peers exist and the loader is free then one of them is started. The draw decides between them evenly: they are numbered and the peer with the number drawn is started.", "quantifier": "every registry and store state, every random choice", "why_tests_cant": "all states and random draws", "anchors": ["loading/loader.go:sync"]}
{"id": "C51", "title": "Failure counter", "statement": "The number of consecutive failures of a peer is increased by one by every failed synchronisation of that peer, reset by success or by a restart from the last common block, and is not affected by other peers.", "quantifier": "every event history", "why_tests_cant": "all histories", "anchors": ["loading/loader.go:failureCounter", "loading/loader.go:Fail", "loading/loader.go:OK", "loading/loader.go:restartSync"]}
{"id": "C52", "title": "Incoming messages are neither lost nor wasted", "statement": "Every message kind the distributor handles is let through by the connection filter, and every message kind it does not handle is skipped.", "quantifier": "every message content id of the protocol", "why_tests_cant": "completeness of a table against a switch in another file", "anchors": ["connection_manager.go:NewConnectionManager", "connection_manager.go:skipFunc", "distributor.go:handleMessage"]}
{"id": "C53", "title": "Shutdown terminates", "statement": "After the termination signal all services stop and the program exits, in every schedule of the goroutines.", "quantifier": "every interleaving of distributor, loader and main", "why_tests_cant": "schedule dependent", "anchors": ["distributor.go:handleBlock", "distributor.go:handleBlockIDsMessage", "distributor.go:Shutdown", "loading/loader.go:loop", "loading/loader.go:Shutdown", "forkdetector.go:run"]}
{"id": "C54", "title": "Reconnection keeps running", "statement": "As long as the service runs, available addresses are taken and dialled again and again, even after a transient storage error.", "quantifier": "every sequence of timer events and storage outcomes", "why_tests_cant": "fault sequences of any length", "anchors": ["respawn.go:handleEvents"]}
{"id": "C55", "title": "active-forks reports only connected peers", "statement": "The /active-forks report only contains peers that are currently connected (and, if the request names peers, only those).", "quantifier": "every set of connections, every request", "why_tests_cant": "all combinations, including the empty one", "anchors": ["api/api.go:activeForks", "api/api.go:getPeers", "chains/linkage.go:forks"]}
{"id": "C56", "title": "Every fork request gets a correct HTTP answer", "statement": "GET /fork/{address} answers 400 for an unparsable address, 404 for a peer without leash, and otherwise the fork of that peer; /fork/{address}/generators/{n} likewise, with n=0 meaning the whole fork (1000 blocks for the longest fork), and no request can make it fail for a leashed peer.", "quantifier": "every store, every request", "why_tests_cant": "all requests incl. negative numbers", "anchors": ["api/api.go:fork", "api/api.go:forkGenerators"]}
{"id": "C57", "title": "Readers and writers never deadlock", "statement": "Any number of concurrent Linkage calls, in every schedule, run to completion.", "quantifier": "every number of goroutines, every schedule of lock operations", "why_tests_cant": "schedules", "anchors": ["chains/linkage.go:LogInitialStats", "chains/linkage.go:Block", "chains/linkage.go:mu"]}
{"id": "C58", "title": "Start-up accepts every address it validates", "statement": "Every bind or declared address that parses is either accepted or rejected with an error message; start-up never panics because of an address parameter.", "quantifier": "every parameter string", "why_tests_cant": "all strings/addresses", "anchors": ["parameters.go:checkBind", "parameters.go:parseAddress"]}
{"id": "C59", "title": "Broadcast reaches exactly the live connections", "statement": "Broadcast sends the message exactly once to every connection that was registered and not yet ended, and to no other.", "quantifier": "every history of registry calls, every map iteration order", "why_tests_cant": "all histories and iteration orders", "anchors": ["peers/registry.go:Broadcast", "peers/registry.go:RegisterPeer", "peers/registry.go:UnregisterPeer", "forkdetector.go"]}
{"id": "C60", "title": "The score of a peer is the one it announced last", "statement": "Whatever happens to a peer (handshakes, lost connections, refusals, being marked hostile, restarts of the program), the score on record for it is the one of the last score update that was written while it was on record, and none if there was no such update.", "quantifier": "every history of registry calls and write outcomes, every IPv4 peer", "why_tests_cant": "all interleavings of the calls that rewrite the whole record", "anchors": ["peers/registry.go:UpdatePeerScore", "peers/registry.go:RegisterPeer", "peers/registry.go:UnregisterPeer", "peers/registry.go:SuggestVersion", "peers/storage.go:putPeer"]}
{"id": "C61", "title": "The loader keeps the block store sound", "statement": "Whatever the loader and the distributor do, in every interleaving and with every outcome of the writes, no stored block is lost, every leash is on a stored block, and every leash has a score.", "quantifier": "every history of loader events interleaved with store and registry calls, every write outcome", "why_tests_cant": "all interleavings and fault sequences", "anchors": ["loading/peer_loader.go:requestBlocks", "loading/peer_loader.go:appendBlock", "loading/peer_loader.go:handleFailure", "chains/linkage.go:MoveLeash", "chains/linkage.go:PutBlock"]}
{"id": "C62", "title": "Updates of the store are atomic", "statement": "While PutBlock, PutMicroBlock or MoveLeash is between taking and releasing the mutex of the store, no other call is inside its critical section.", "quantifier": "every number of goroutines, every sequence of calls, every schedule of lock operations", "why_tests_cant": "schedules", "anchors": ["chains/linkage.go:mu", "chains/linkage.go:PutBlock", "chains/linkage.go:PutMicroBlock", "chains/linkage.go:MoveLeash"]}
{"id": "C63", "title": "The list of connections is always available", "statement": "While the program runs, Connections always answers, whatever peers send and whatever writes fail, and it lists each registered connection exactly once, with the stored record of its peer, ordered by name.", "quantifier": "every execution of the program, every map iteration order and sort", "why_tests_cant": "composition of the registry with the call discipline of the connection manager over all executions", "anchors": ["peers/registry.go:Connections", "connection_manager.go:Accept", "connection_manager.go:Connect", "distributor.go:handleConnected"]}
{"id": "C64", "title": "Answers reach the loader in order", "statement": "Block ids, signatures and blocks go from the distributor to the loader in the order in which they arrived, each exactly once and under the address of its sender, and until the termination signal a waiting package can always be taken.", "quantifier": "every execution of the program", "why_tests_cant": "all interleavings of distributor and loader", "anchors": ["distributor.go:handleBlock", "distributor.go:handleSignaturesMessage", "distributor.go:handleBlockIDsMessage", "loading/loader.go:loop"]}
{"id": "C65", "title": "A block from a peer is linked or passed on", "statement": "A block message is stored and moves the leash of its sender alone, when the block or its parent is known; otherwise it leaves the store unchanged; in both cases it is handed to the loader. A block that cannot be decoded has no effect.", "quantifier": "every execution, every block, both encodings", "why_tests_cant": "all stores and blocks", "anchors": ["distributor.go:handleBlockMessage", "distributor.go:handleProtoBlockMessage", "distributor.go:handleBlock", "chains/linkage.go:PutBlock"]}
{"id": "C66", "title": "Peers are shared with those who ask", "statement": "A GetPeers message is answered, to its sender only, with the addresses and ports of exactly the peers on record in the Connected state, each once; it changes nothing else.", "quantifier": "every execution, every sender", "why_tests_cant": "all registries", "anchors": ["distributor.go:handleGetPeersMessage", "peers/registry.go:FriendlyPeers", "peers/peer.go:TCPAddr"]}
{"id": "C67", "title": "A broken connection is dropped, and only that one", "statement": "When a connection breaks it is closed and removed from the registry, and every other connection stays registered.", "quantifier": "every execution, every order of connections and breaks", "why_tests_cant": "orders of events of several connections of one peer", "anchors": ["distributor.go:handleInternalError", "peers/registry.go:UnregisterPeer", "peers/registry.go:RegisterPeer"]}
{"id": "C68", "title": "Score messages set the score of their sender", "statement": "A score message makes the announced big-endian number the score on record of its sender and changes nothing else; it has no effect for an unknown sender.", "quantifier": "every execution, every byte string", "why_tests_cant": "all byte strings, all registries", "anchors": ["distributor.go:handleScoreMessage", "peers/registry.go:UpdatePeerScore"]}
{"id": "C69", "title": "No message stops the program", "statement": "Whatever a peer sends, the distributor handles it without a panic.", "quantifier": "every execution, every message and notice, every outcome of the writes", "why_tests_cant": "all messages in all states", "anchors": ["distributor.go:handleMessage", "distributor.go:handleInfoMessage", "chains/utils.go:calculateScore", "peers/registry.go:RegisterPeer"]}
{"id": "C70", "title": "The heads report is exact", "statement": "A request for /heads is answered with exactly the blocks that have no successor and are the position of a peer, each once, with the height, score and time of the block, also when blocks arrive while the report is made.", "quantifier": "every store, every interleaving of writes with the report", "why_tests_cant": "all trees and interleavings", "anchors": ["api/api.go:heads", "chains/linkage.go:ActiveHeads", "chains/linkage.go:Block"]}
{"id": "C71", "title": "The leashes report is exact", "statement": "A request for /leashes is answered with every block that is the position of a peer, once, together with exactly the peers on it and the data of the block, in the order of falling score and then falling number of peers, also when blocks arrive while the report is made.", "quantifier": "every store, every interleaving of writes with the report", "why_tests_cant": "all stores and interleavings", "anchors": ["api/api.go:leashes", "api/entities.go:Less", "chains/linkage.go:Leashes"]}
{"id": "C72", "title": "The status is given at any time", "statement": "A request for /status is always answered with the numbers of short and long forks, stored peers, friendly peers and connections.", "quantifier": "every state of the program", "why_tests_cant": "all registries and stores", "anchors": ["api/api.go:status", "chains/linkage.go:Stats"]}
{"id": "C73", "title": "The peers report is complete", "statement": "The answer to /peers lists every peer on record exactly once, ordered by name without regard to case.", "quantifier": "every reachable registry", "why_tests_cant": "all registries", "anchors": ["api/api.go:peers", "peers/registry.go:Peers"]}
{"id": "C74", "title": "Seed peers are known after the start", "statement": "When the program has started with a working database, every seed peer, built-in or given on the command line, is on record unless it is a loopback address or our own, and those not known before can be dialled at once.", "quantifier": "every command line, every earlier content of the database", "why_tests_cant": "all lists of peers and all databases", "anchors": ["parameters.go:parseSeedPeers", "forkdetector.go:run", "peers/registry.go:AppendAddresses"]}
{"id": "C75", "title": "A peer that left is dialled again", "statement": "After a disconnection or a failed dial, a peer that is not hostile and has a known port is handed out for dialling again, with its port, at the latest by the first attempt made ten minutes (and half a second) later.", "quantifier": "every reachable registry, every sequence of calls in between that does not concern the address", "why_tests_cant": "all histories between the disconnection and the next attempt", "anchors": ["peers/registry.go:UnregisterPeer", "peers/registry.go:TakeAvailableAddresses", "respawn.go:establishConnections"]}
{"id": "C76", "title": "A newly announced peer is dialled at the next attempt", "statement": "An announced address that is new, IPv4, foreign and has a port is handed out for dialling by the next attempt after it was added.", "quantifier": "every reachable registry, every announcement, every sequence of calls in between that does not concern the address", "why_tests_cant": "all histories and lists of addresses", "anchors": ["peers/registry.go:AppendAddresses", "peers/registry.go:TakeAvailableAddresses"]}
{"id": "C77", "title": "A qualified node that connects is registered", "statement": "A new connection of a node that qualifies becomes the connection of its address and its record takes over what the handshake says, including the port if it declares the address it came from; a node that does not qualify changes no connection.", "quantifier": "every execution, every handshake", "why_tests_cant": "all handshakes in all states", "anchors": ["distributor.go:handleConnected", "peers/registry.go:RegisterPeer", "peers/registry.go:checkPort"]}
{"id": "C78", "title": "A refused connection is closed", "statement": "A new connection that is not registered is closed.", "quantifier": "every execution, every handshake", "why_tests_cant": "all handshakes in all states", "anchors": ["distributor.go:handleConnected", "peers/registry.go:RegisterPeer", "peers/registry.go:checkPort"]}
{"id": "C79", "title": "Announced addresses become known", "statement": "A message with addresses adds exactly the new, IPv4, non-loopback, foreign addresses among them to the records and changes nothing else.", "quantifier": "every execution, every message", "why_tests_cant": "all lists in all states", "anchors": ["distributor.go:handlePeersMessage", "peers/registry.go:AppendAddresses"]}
{"id": "C80", "title": "Micro-block announcements move the leash of their sender", "statement": "The announcement of a micro-block that is known, or whose reference is a known block other than the genesis block, puts its sender on it and, if new, stores it; otherwise nothing changes. No other peer is moved and the loader is not bothered.", "quantifier": "every execution, every announcement", "why_tests_cant": "all announcements in all states", "anchors": ["distributor.go:handleMicroBlockInvMessage", "chains/linkage.go:PutMicroBlock"]}
{"id": "C81", "title": "Every connection is asked for peers", "statement": "When the timer of the distributor fires, a request for peers goes to each registered connection exactly once and nothing else happens.", "quantifier": "every execution", "why_tests_cant": "all sets of connections", "anchors": ["distributor.go:pingConnections", "peers/registry.go:Broadcast"]}
{"id": "C82", "title": "The lists of peers and connections are answered", "statement": "While the clock shows a year before 10000, the lists of all peers, of friendly peers and of connections are always answered with status 200 and contain exactly the stored peers, the stored peers in state Connected, and the records of the connected addresses, each once.", "quantifier": "every execution, every iteration order", "why_tests_cant": "all executions; the time zone and the clock are part of the input", "anchors": ["api/api.go:peers", "api/api.go:friendly", "api/api.go:connections"]}
{"id": "C83", "title": "A failed dial costs no connection", "statement": "A dial that fails does not remove a connection from the registry, and changes nothing about other addresses, the store and the loader.", "quantifier": "every execution", "why_tests_cant": "all interleavings of dials and incoming connections", "anchors": ["respawn.go:establishConnections", "peers/registry.go:UnregisterPeer"]}
{"id": "C84", "title": "The program runs with what was configured", "statement": "After a start with accepted parameters the program is only ever connected with nodes of the configured network and never with its declared address; the version it offers is the newest configured one for unknown peers, a configured one for peers it never was connected with, and the recorded one otherwise; asking for a version never crashes.", "quantifier": "every command line, every execution after it, every peer", "why_tests_cant": "all parameters and all executions", "anchors": ["forkdetector.go:run", "peers/registry.go:NewRegistry", "peers/version_provider.go:SuggestVersion"]}
{"id": "C85", "title": "Nodes that do not fit become hostile", "statement": "A node that connects from another network, or with a version two or more minor versions from the one on record, is disconnected and its record is marked hostile; the record keeps port, nonce, score and date, and the node is neither dialled nor offered a version afterwards. Marking an address as hostile marks its record, makes one if there is none, releases the address and changes nothing else.", "quantifier": "every execution, every handshake", "why_tests_cant": "all handshakes in all states", "anchors": ["peers/registry.go:RegisterPeer", "peers/registry.go:MarkAsHostile", "peers/storage.go:putPeer"]}
{"id": "C86", "title": "Positions are the peers' own words", "statement": "The block at which the program sees a peer is the one it saw it at when it was started or one that a connection from the address of the peer named: in a block, in the announcement of a micro-block or in a list of ids. A peer that sent nothing is not moved by anything that others send. So every peer listed in a fork report named the head block it is listed under, or stood there at the start.", "quantifier": "every execution, every peer, every fork report", "why_tests_cant": "all executions of all goroutines, with all failures of writes", "anchors": ["distributor.go:handleMessage", "loading/peer_loader.go:requestBlocks", "loading/peer_loader.go:appendBlock", "loading/peer_loader.go:handleFailure", "chains/linkage.go:Forks"]}
{"id": "C87", "title": "Stored blocks are what peers sent", "statement": "Every stored block was stored when the program was started, or a peer sent it with exactly the stored parent, time and generator, or a peer announced the micro-block that makes it, and then it has the data of the stored block below it.", "quantifier": "every execution, every stored block", "why_tests_cant": "all executions of all goroutines, with all failures of writes", "anchors": ["chains/linkage.go:PutBlock", "chains/linkage.go:PutMicroBlock", "distributor.go:handleBlock", "loading/peer_loader.go:appendBlock"]}
{"id": "C88", "title": "Nobody is dialled who was not named", "statement": "Every address and port that the program dials was on record when it was started, is a seed peer, was in a list of peers that somebody sent, or was declared in the handshake of a connection from that very address; the same holds for every port on record. Loopback addresses, the own declared address, IPv6 addresses and port 0 are never dialled.", "quantifier": "every execution, every configuration, every database of earlier runs", "why_tests_cant": "all executions of all goroutines, with all failures of reads and writes", "anchors": ["respawn.go:establishConnections", "peers/registry.go:TakeAvailableAddresses", "peers/registry.go:AppendAddresses", "peers/registry.go:RegisterPeer", "peers/version_provider.go:SuggestVersion"]}
{"id": "C89", "title": "The history of an honest peer is loaded completely", "statement": "A synchronisation with a peer that has one history and answers from it ends only when all blocks of the history are stored and the last of them is the position of the peer. Until then the loader never gives up; it sends fewer further requests for ids than the history has blocks; and the end can be reached from every state. The peer may answer with parts of any length, overlapping with what is known or not, and its blocks may come in any order and more than once; between two events of the loader other peers and goroutines may do anything except storing false blocks of the history. (Calls of other goroutines while the loader is in the middle of an event are the subject of C92; there an early release is possible, C92_early_release.)", "quantifier": "every history, every division into answers, every order of arrival, every interleaving with the events of other peers and goroutines", "why_tests_cant": "all histories, answers and interleavings of any length", "anchors": ["loading/loader.go:OK", "loading/loader.go:isLagging", "loading/peer_loader.go:requestIDs", "loading/peer_loader.go:requestBlocks", "loading/peer_loader.go:appendBlock"]}
{"id": "C90", "title": "Orderly shutdown", "statement": "Until the signal all services run. After it they are stopped one after the other, API, listener, dialling, loader, distributor; a stopped service does not come back; and when the program exits no goroutine is left that could use the store, and every package that the distributor handed over has been handled by the loader.", "quantifier": "every execution, every moment of the signal", "why_tests_cant": "all interleavings of all goroutines with the shutdown", "anchors": ["forkdetector.go:run", "service.go:Shutdown", "distributor.go:Run", "loading/loader.go:Run"]}
{"id": "C91", "title": "Concurrent calls take effect one after the other", "statement": "Whatever calls any number of goroutines make on the store or on the registry of peers, and however their accesses to the database are interleaved, every call gives the result, and the calls together lead to the state, that they have when made one at a time in the order in which they give up the mutex. That order agrees with the order of calls within each goroutine and with real time. While no writer is inside, nothing of an unfinished call can be seen. If the calls are finitely many and LogInitialStats is not among them, no schedule goes on for ever, and it ends only when every call has returned.", "quantifier": "every number of goroutines, every sequence of calls, every interleaving of the accesses, every code with the same lock operations", "why_tests_cant": "all interleavings of any number of goroutines", "anchors": ["chains/linkage.go:PutBlock", "chains/linkage.go:PutMicroBlock", "chains/linkage.go:MoveLeash", "chains/linkage.go:Forks", "peers/registry.go:RegisterPeer", "peers/registry.go:UpdatePeerScore", "peers/version_provider.go:SuggestVersion"]}
{"id": "C92", "title": "The loader is not disturbed in the middle of an event", "statement": "Handling one event the loader makes several calls on the store and the registry, and other goroutines make calls in between. Whatever these are: the store is what all calls one after the other make of it and loses nothing; the loader always gets to the end of the event, or crashes the program by one of the two known calls; it stores only blocks that it received from the peer it attributes them to, and moves positions only to blocks that the peer listed; its requests list between one and 100 stored blocks, each the parent of the one before; and while it synchronises the ticker runs and the timeout is counted from its last request. Without such calls in between, an event is one step of the model that the other properties of the loader are about, and runs in which the others wait for the loader are exactly the histories of that model.", "quantifier": "every execution of the loader among other goroutines, every interleaving of single calls", "why_tests_cant": "all interleavings at the level of single calls", "anchors": ["loading/loader.go:Run", "loading/loader.go:sync", "loading/loader.go:OK", "loading/peer_loader.go:requestIDs", "loading/peer_loader.go:requestIDsFromLCA", "loading/peer_loader.go:requestBlocks", "loading/peer_loader.go:appendBlock", "loading/peer_loader.go:handleFailure", "distributor.go:handleBlock"]}
{"id": "C93", "title": "No connection is lost sight of", "statement": "Every connection that the program is told of is on its list of connections or has been closed. A connection is on the list if and only if it qualified when it was made and since then no connection of its address broke, no dial of its address failed and no other connection of its address qualified; and the program closes only connections that it refuses or that broke. (The first sentence is false; the theorem gives the complete list of the ways in which a connection is lost.)", "quantifier": "every execution of the whole program, every connection", "why_tests_cant": "all executions of all goroutines, with all failures of writes", "anchors": ["distributor.go:handleConnected", "distributor.go:handleInternalError", "peers/registry.go:RegisterPeer", "peers/registry.go:UnregisterPeer", "respawn.go:establishConnections"]}
{"id": "C94", "title": "The program can be stopped at any moment and started again", "statement": "Run the program any number of times, each time until it is stopped, killed in the middle of anything, or the machine fails. The databases then open again. The store is what the calls of all runs made of it, except that in each run the last call may have been cut short between two of its writes; every block stays with its record, every peer stays known, and a peer that was connected or being dialled when the program ended is dialled again. The program starts again on these databases. (The last sentence is false: a leash on a head with a timestamp of 2^63 - 1 or more makes every start panic, and any peer can send such a block.)", "quantifier": "every number of runs, every moment at which each of them ends, every configuration with the same genesis block, every failure of a write", "why_tests_cant": "all executions, all crash points, any number of restarts", "anchors": ["forkdetector.go:run", "chains/linkage.go:NewLinkage", "chains/linkage.go:LogInitialStats", "chains/linkage.go:PutBlock", "peers/registry.go:NewRegistry", "peers/registry.go:AppendAddresses", "peers/registry.go:TakeAvailableAddresses"]}
{"id": "C95", "title": "What is shown about a peer does not depend on what the others say", "statement": "If every block and every micro-block announcement tells the truth about the block it names, then everything recorded is true: height and score of every stored block are counted along its true chain, whatever the order, the senders, the failed writes and the restarts. Two copies of the program, or one program at two times, agree about every block that both have stored: record, chain down from it, last common block with another, score of a peer seen there. So what one peer sends never changes what is shown about another. (False if one peer lies: the first who uses an id decides what is recorded under it.)", "quantifier": "every meaning of the ids, every execution of the program with true messages, every number of interrupted runs; any two stores so obtained", "why_tests_cant": "all executions, all senders and orders, all pairs of stores", "anchors": ["chains/linkage.go:PutBlock", "chains/linkage.go:PutMicroBlock", "chains/linkage.go:Block", "chains/linkage.go:LastIDs", "chains/linkage.go:LeashScore", "chains/storage.go:putBlock", "chains/storage.go:putMicroBlock", "chains/storage.go:lca", "forkdetector.go:run"]}
{"id": "C96", "title": "The reports show the forks that there are", "statement": "If the messages so far told the truth about the blocks they name, a fork report that is answered is true: two listed peers are in one entry exactly when they are on the same block; the last common block of an entry is the last block that the true chain of its head has in common with the true chain of the first head; its length is the number of blocks from there; the length is zero exactly for heads on the chain of the first head; of two peers on different branches at least one is in an entry of positive length; height, score, time and generator are those of the head; without a filter no listed peer is on a block of a greater score than the first. The same holds of the answer about a single peer.", "quantifier": "every meaning of the ids, every execution with true messages, every filter, every moment at which a report is asked for", "why_tests_cant": "all executions, all shapes of the block tree", "anchors": ["chains/linkage.go:Forks", "chains/linkage.go:Fork", "chains/linkage.go:PutBlock", "chains/linkage.go:PutMicroBlock", "chains/storage.go:lca", "api/api.go:forks", "api/api.go:fork"]}
{"id": "C97", "title": "What an honest peer has is loaded and shown", "statement": "A synchronisation of the running program with a peer that announces the score of its history and answers requests for ids from it: when the synchronisation ends, every block of the history is stored and the position of the peer is the last block. Until then the loader waits for this peer and nothing makes it give up: other peers may send anything that does not falsify the history, connections may come and go, the writes of the distributor may fail. The end can always be reached by messages of the peer. If all messages tell the truth, then every fork report that includes the peer shows it, in one entry only, on the last block of its history with the right height, score, time and generator.", "quantifier": "every history, every meaning of the ids, every execution of the program in which the peer answers honestly, the loader's writes succeed and no tick comes more than thirty seconds after the last progress", "why_tests_cant": "all executions of all goroutines, all histories, all orders of messages", "anchors": ["distributor.go:handleBlock", "distributor.go:handleBlockIDsMessage", "distributor.go:handleSignaturesMessage", "distributor.go:handleMicroBlockInvMessage", "loading/loader.go:handleIDs", "loading/loader.go:handleBlock", "loading/loader.go:sync", "chains/linkage.go:PutBlock", "chains/linkage.go:Forks"]}
{"id": "C98", "title": "A question about one block or one peer is answered rightly or not at all", "statement": "When the disk fails to read some of the entries, a question about single blocks or peers (has this peer a position, where is it, is this block stored, what is its record, the last ids before it, the last common block of two blocks, the generators on a chain, the score of a peer's block) is answered as on a good disk or with an error. (False for the score of a peer's block if a block whose id consists of zeros was stored, which any peer can bring about: an unreadable position is then taken for that block.)", "quantifier": "every store, every set of entries that cannot be read at the time of the question", "why_tests_cant": "all stores and all patterns of failures of the disk", "anchors": ["chains/linkage.go:HasLeash", "chains/linkage.go:Leash", "chains/linkage.go:LeashScore", "chains/linkage.go:HasBlock", "chains/linkage.go:Block", "chains/linkage.go:LastIDs", "chains/linkage.go:ForkGenerators", "chains/storage.go:get", "chains/storage.go:lca"]}
{"id": "C99", "title": "A report about all peers is complete or says that it is not", "statement": "When the disk fails during a walk over the entries, the list of positions, the list of heads and the fork reports are those of the store or an error. (False: errors of iterators are not looked at, so entries are left out without a word. What holds: nothing else changes. A list is the true list without the missed entries, in the same order; a fork report is the report of a store with the same blocks in which the missed peers are nowhere; if no position was missed it is right or an error.)", "quantifier": "every reachable store, every set of entries that cannot be read or are missed at the time of the question", "why_tests_cant": "all stores and all patterns of failures of the disk", "anchors": ["chains/linkage.go:Leashes", "chains/linkage.go:Heads", "chains/linkage.go:Forks", "chains/linkage.go:Stats", "chains/linkage.go:Fork", "chains/linkage.go:LCB", "chains/storage.go:leashes", "chains/storage.go:getHeads", "chains/storage.go:heads"]}
{"id": "C100", "title": "Failed reads do not spoil the store", "statement": "A call that stores a block or an announcement, or opens the store, does exactly what it does on a good disk, or returns the error and leaves the store as it was; so after any history with failing reads the store is one that some of the same calls lead to on a good disk. A store whose counter cannot be read at the start is not taken for an empty one.", "quantifier": "every store, every history of calls, every set of unreadable entries for every call, every failure of a write", "why_tests_cant": "all histories and all patterns of failures of the disk", "anchors": ["chains/linkage.go:PutBlock", "chains/linkage.go:PutMicroBlock", "chains/linkage.go:NewLinkage", "chains/storage.go:putBlock", "chains/storage.go:putMicroBlock", "chains/storage.go:putNewHead", "chains/storage.go:putHead"]}
{"id": "C101", "title": "The lists of peers are complete or say that they are not", "statement": "When the disk fails to read, what is said about a peer, the list of connections, the list of peers and the list of friendly peers are those of a good disk or an error. (False for the two lists that walk over the database: a missed entry is left out without a word; the theorem says that nothing else changes.)", "quantifier": "every reachable registry, every set of entries that cannot be read or are missed", "why_tests_cant": "all registries and all patterns of failures of the disk", "anchors": ["peers/registry.go:Peer", "peers/registry.go:Connections", "peers/registry.go:Peers", "peers/registry.go:FriendlyPeers", "peers/storage.go:peers", "peers/storage.go:peer"]}
{"id": "C102", "title": "Failed reads do not spoil the registry of peers", "statement": "A call of the registry does what it does on a good disk, or returns the error and changes neither records nor connections; learning addresses stops at the failure and returns the right count; handing out addresses for dialling leaves out the missed ones only. After any history with failing reads the registry is one that calls on a good disk can lead to. An address whose dial failed is dialled again after the delay. (The last sentence is false: if the record cannot be read when the failure is reported, the address stays marked as being dialled and is never handed out again, and likewise a broken connection stays on the list.)", "quantifier": "every registry, every history of calls, every set of unreadable or missed entries for every call, every failure of a write, all times", "why_tests_cant": "all histories and all patterns of failures of the disk", "anchors": ["peers/registry.go:RegisterPeer", "peers/registry.go:UnregisterPeer", "peers/registry.go:MarkAsHostile", "peers/registry.go:UpdatePeerScore", "peers/registry.go:AppendAddresses", "peers/registry.go:TakeAvailableAddresses", "peers/version_provider.go:SuggestVersion", "peers/storage.go:hasPeer", "respawn.go:establishConnections"]}
{"id": "C103", "title": "A failed read costs at most the current synchronisation", "statement": "The history loader on a disk that fails to read any entries at any call, among the other goroutines: no failed read crashes it, spoils the store, makes it store or request anything that the peer did not list or send, or makes it wait for ever: a synchronisation without progress ends at the first tick more than thirty seconds after the last request. (The last part is false: one failed read of the record of the peer or of the score of its position at the end of a batch, or a failed read in the storing of a block at a timeout, and the loader never loads anything again until the program is restarted. The theorem says that these three are the only exceptions.)", "quantifier": "every run of the loader among the other goroutines, every set of unreadable or missed entries at every call of every goroutine, every failure of a write, all times", "why_tests_cant": "all interleavings and all patterns of failures of the disk", "anchors": ["loading/loader.go:OK", "loading/loader.go:Fail", "loading/loader.go:sync", "loading/loader.go:tick", "loading/peer_loader.go:handleFailure", "loading/peer_loader.go:requestBlocks", "chains/linkage.go:PutBlock", "chains/linkage.go:LeashScore", "peers/registry.go:Peer"]}
{"id": "C104", "title": "A report is right, or the status says that it is not", "statement": "The HTTP interface on databases that fail to read any entries at any call, or that the ending program closes while a request is answered: each answer is the one that good databases would give, or its status is 500. (False when an iteration over entries ends early: the storage does not ask the iterator for its error, so the lists lack the entries that were not delivered, the forks are those of a store without these peers, and the status is 200. The theorems say exactly which entries are missing, that everything else in these answers is right, and that the claim holds when iterations deliver everything.)", "quantifier": "every request, every store and registry that can come about, a separate condition of the databases for every call of a handler, all iteration orders of maps and orders of equal elements", "why_tests_cant": "all stores, all patterns of failures of the disk and all moments of the closing", "anchors": ["api/api.go:forks", "api/api.go:activeForks", "api/api.go:fork", "api/api.go:forkGenerators", "api/api.go:heads", "api/api.go:leashes", "api/api.go:status", "api/api.go:peers", "api/api.go:friendly", "api/api.go:connections", "api/api.go:Shutdown", "chains/linkage.go:Close", "peers/registry.go:Close"]}
{"id": "C105", "title": "The program goes on when the disk fails to read", "statement": "All goroutines of the program together, the loader's events interleaved with the others call by call, and any entries of both databases unreadable or missed at any call: the store is at every moment one that some of the calls made so far lead to on a good disk, nothing stored is lost or changed, and the registry is one that calls on a good disk can lead to; packages reach the loader in order and none is invented; whatever is stored for a peer, the peer has sent. An event of a goroutine other than the loader does what it does on a good disk, or costs just what it concerns: the message is dropped, the peer is turned away, a broken connection stays on the list, an address is not dialled or stays marked as being dialled. (So a block that was asked for may be lost, and the loader then waits for its timeout.) No failed read makes the program panic, and none keeps it from ending after the signal.", "quantifier": "every execution of the program with interleaved calls, every set of unreadable or missed entries of both databases at every call of every goroutine, every failure of a write, all times, every configuration and saved state", "why_tests_cant": "all interleavings and all patterns of failures of the disk", "anchors": ["distributor.go:handleMessage", "distributor.go:handleBlock", "distributor.go:handleConnected", "distributor.go:handleInternalError", "loading/loader.go:Run", "respawn.go:handleEvents", "peers/version_provider.go:SuggestVersion", "chains/linkage.go:PutBlock", "chains/linkage.go:PutMicroBlock", "forkdetector.go:run"]}
{"id": "C106", "title": "The history of an honest peer is loaded while other goroutines work", "statement": "The claim of C89 one call at a time. While the loader handles an event it makes several calls, and between two of them other goroutines use the store and the registry. A synchronisation with a peer that has one history and answers from it ends only when all blocks of the history are stored and the last of them is the position of the peer; until then it never panics, never changes the peer and never gives up; it sends fewer further requests for ids than the history has blocks; and the end can be reached from every moment, also from the middle of an event. The calls of others may be anything, except that they store no false blocks of the history and, while an event is being handled, do not move the position of this peer back or off its history. Calls on the registry, calls made for other peers, and calls that bring a block of the history which is not before the position keep to this.", "quantifier": "every history, every division into answers, every order of arrival, every interleaving of single calls", "why_tests_cant": "all histories, answers and interleavings of any length", "anchors": ["loading/loader.go:OK", "loading/loader.go:isLagging", "loading/loader.go:sync", "loading/peer_loader.go:requestIDs", "loading/peer_loader.go:requestBlocks", "loading/peer_loader.go:appendBlock", "loading/peer_loader.go:reportOK"]}
{"id": "C107", "title": "What an honest peer has is loaded and shown while the goroutines work side by side", "statement": "The claim of C97 in the program of C105, where the loader makes its calls one by one, the distributor, the respawner and the connections do what they do in between, and reads fail. Before the synchronisation any read may fail; during it any read of the other goroutines. From the timer that starts a synchronisation with an honest peer: the loader does not panic and keeps the peer; between two events it waits for ids or blocks of the peer, or it has released the peer, and then all blocks of its history are stored and its position is the last of them; it sends fewer further requests for ids than the history has blocks; the end can be reached from every moment, unless the program was told to stop, by nothing but steps of the loader and messages of the peer. If nobody lies, honest answers of the peer are enough for this, and then every report of the forks that includes the peer has it in the entry of the last block of its history, with the height, score, time and generator of that block.", "quantifier": "every history, every execution of the whole program before and during the synchronisation, every interleaving of single calls, every failing read of other goroutines", "why_tests_cant": "all histories, executions and disks of any length; the way leads through all services of the program", "anchors": ["loading/loader.go:OK", "loading/loader.go:sync", "loading/peer_loader.go:requestIDs", "loading/peer_loader.go:requestBlocks", "loading/peer_loader.go:appendBlock", "loading/peer_loader.go:reportOK", "distributor.go:handleMessage", "chains/linkage.go:PutBlock", "chains/linkage.go:Forks"]}
{"id": "C108", "title": "The loader waits only for what a peer owes", "statement": "The history loader makes its calls one by one among the other goroutines. Between two events a synchronisation that is under way waits for ids or for a block that the peer was asked for on its connection and has not sent since, and the thirty seconds are counted from that request; a failure of a peer is counted only at a tick more than thirty seconds after a request that this peer has not answered since. (False as it stands: a list of ids with an id twice, or a failed read when a list of ids comes, and the loader waits for a peer that has sent everything, and counts a failure. The theorems hold for executions in which no call of the loader fails and no list of the peer repeats an id.)", "quantifier": "every store and registry, every interleaving of single calls, every sequence of messages, ticks and timers, every answer of the calls", "why_tests_cant": "executions of any length with any interleaving; what a peer owes depends on the whole history of messages", "anchors": ["loading/peer_loader.go:requestIDs", "loading/peer_loader.go:requestBlocks", "loading/peer_loader.go:appendBlock", "loading/peer_loader.go:onTick", "loading/peer_loader.go:handleFailure", "loading/loader.go:Fail", "loading/loader.go:OK", "loading/queue.go:put"]}
{"id": "C109", "title": "An honest peer that has answered everything has been loaded completely", "statement": "The goroutines work side by side; the loader has opened a synchronisation with an honest peer. At a moment when the peer has answered every request that was sent to it since (ids for a request of ids, the block for a request of a block, in any order), when the distributor holds nothing from it and the loader rests, the synchronisation has ended: all blocks of the history of the peer are stored, its position is the last block, and if nobody lied every report of the forks shows it there with the height, score, time and generator of that block. So the loader asks for everything it needs and no answer is lost on the way.", "quantifier": "every honest history, every start of the program and execution before, every interleaving of single calls of all goroutines, any messages of the other peers, failing reads and writes of the other goroutines (the writes for blocks of this peer succeed)", "why_tests_cant": "the answers pass through two goroutines in any order and interleaving with other peers; whether one is lost depends on the whole execution", "anchors": ["distributor.go:handleBlockMessage", "distributor.go:handleBlockIDsMessage", "loading/loader.go:Run", "loading/peer_loader.go:requestIDs", "loading/peer_loader.go:requestBlocks", "loading/peer_loader.go:appendBlock", "loading/queue.go:put", "loading/peer_loader.go:reportOK"]}
{"id": "C110", "title": "An honest peer that answers all requests is loaded in the end", "statement": "The program runs without end and the goroutines work side by side; the scheduler forgets neither the loader nor the distributor for ever. The loader has opened a synchronisation with an honest peer that answers every request at some time (within the thirty seconds). Then a moment comes at which the synchronisation has ended, all blocks of the history of the peer are stored and its position is the last block; if nobody lied, every report of the forks at this moment shows it there with the height, score, time and generator of that block. No order of events makes the loader wait for ever, ask for ever, or give the peer up.", "quantifier": "every honest history, every start of the program and execution before, every infinite execution of single calls of all goroutines that is fair to the loader and the distributor, any messages of the other peers, failing reads and writes of the other goroutines (the writes for blocks of this peer succeed, the store has room)", "why_tests_cant": "a claim about infinite executions: that something happens at last, in every fair order, cannot be seen in any finite run", "anchors": ["distributor.go:handleBlockMessage", "distributor.go:handleBlockIDsMessage", "loading/loader.go:Run", "loading/peer_loader.go:requestIDs", "loading/peer_loader.go:requestBlocks", "loading/peer_loader.go:appendBlock", "loading/queue.go:put", "loading/peer_loader.go:reportOK"]}
{"id": "C111", "title": "The position of a peer is moved only by this peer, while the goroutines work side by side", "statement": "One event moves the position of a peer only if it is a message about a block that arrives from this very peer (then to this block), or a call of the loader during a synchronisation with this very peer (then to a block that the peer has listed or sent before). Messages of other peers and synchronisations with other peers leave it alone. So the position at any moment is the one at the start of the program or a block that the peer named, a silent peer keeps its position, and a peer that is not being loaded keeps its position until it speaks of a block again.", "quantifier": "every start of the program, every execution of single calls of all goroutines, any messages, any failing reads and writes, every peer, every event", "why_tests_cant": "the loader, the distributor and all peers write positions to one database in any interleaving; a call for the wrong peer shows only in orders that a test does not produce", "anchors": ["distributor.go:handleBlock", "distributor.go:handleMicroBlockInvMessage", "loading/peer_loader.go:requestBlocks", "loading/peer_loader.go:appendBlock", "loading/peer_loader.go:handleFailure", "loading/loader.go:sync", "chains/linkage.go:MoveLeash"]}
{"id": "C112", "title": "In a calm network all connected peers are up to date in the end, and stay so", "statement": "The program runs for ever. The connected peers are honest, stay connected, have announced the scores of their histories and answer what they are asked for in time. Their number is arbitrary, and the histories may be different forks. Then there is a moment from which on nothing is synchronised any more, all blocks of all these histories are stored, the position of each peer is the last block of its history, and every report of the forks shows each peer in the entry of this block with its height, score, time and generator. The peer to synchronise with is chosen at random, and no choice lets a peer starve.", "quantifier": "every start of the program, every infinite execution of single calls of all goroutines in which none is forgotten for ever, any number of peers, any histories, any random choices, any order in which answers arrive", "why_tests_cant": "the claim is about all infinite executions and all random choices; a test sees a finite part of one", "anchors": ["loading/loader.go:sync", "loading/loader.go:Run", "loading/loader.go:handleIDs", "loading/loader.go:handleBlock", "loading/peer_loader.go:requestIDs", "loading/peer_loader.go:requestBlocks", "loading/peer_loader.go:appendBlock", "chains/linkage.go:LeashScore", "chains/linkage.go:Forks", "peers/registry.go:Connections"]}
{"id": "C113", "title": "In a calm network the reports show all forks between the connected peers in the end, and no other ones", "statement": "Under the same conditions as before there is a moment from which on every report about connected peers is exactly what their histories say: a peer with the highest score leads, every peer is in the entry of the last block of its history and in no other one, with the last block that its history has in common with the leading one and the number of its blocks since then, and there are no further entries. If the histories of two of the peers have separated, they are in different entries, at least one of which tells a fork of one block or more; if of any two of them one only is behind the other, all entries have the length zero. The report is also given, unless two histories have less than about a third in common.", "quantifier": "every start of the program, every infinite execution of single calls of all goroutines in which none is forgotten for ever, any number of peers, any histories, any random choices, every set of connected peers asked for", "why_tests_cant": "no fork is missed and no alarm is false for all histories and all infinite executions; a test sees a finite part of one execution with some histories", "anchors": ["chains/linkage.go:Forks", "chains/linkage.go:forks", "chains/storage.go:lca", "loading/loader.go:sync", "loading/loader.go:Run", "api/api.go:activeForks"]}
{"id": "C114", "title": "The program listens for connections exactly if it is configured to", "statement": "When the parameters are accepted, the server for incoming connections is started exactly if the declared address is an IPv4 address (or an IPv4 address written as IPv6) that is not empty, and the bind address has a host or a port. Whatever happens afterwards, a program that was started without the server never listens. A declared address that is not an address at all counts as none, without an error message, while the program does not start with such a bind address.", "quantifier": "every command line, every way of parsing that satisfies the assumptions on the standard library, every execution of the program", "why_tests_cant": "the claim is about all command lines and all executions; the tests do not start the program", "anchors": ["listener.go:NewListener", "parameters.go:newParameters", "parameters.go:parseAddress", "parameters.go:checkBind", "forkdetector.go:run"]}
{"id": "C115", "title": "No peer keeps the loader to itself", "statement": "A synchronisation with one peer ends after a number of batches that is bounded by what the peer announced and by how far its position gets, so that the other peers that lag behind get their turn, whatever that peer sends.", "quantifier": "every state of the loader while it waits for the ids of a peer, every sequence of messages of this peer and of the others, failed writes, any clock", "why_tests_cant": "the claim is about executions without end and about all behaviours of a dishonest peer; a test follows one short synchronisation with an honest peer", "anchors": ["loading/loader.go:OK", "loading/loader.go:isLagging", "loading/loader.go:sync", "loading/peer_loader.go:requestBlocks"]}
{"id": "C116", "title": "Every path of the API leads to its report", "statement": "A GET request for one of the ten paths of the API is answered with the report that belongs to this path, about the address and the number written in it; no path belongs to two reports, and no other request gets a report: other paths are answered with 404 and other methods with 405.", "quantifier": "every text of a request target, every method, every content of the databases and the registry at each read, failing reads", "why_tests_cant": "the claim covers all texts of paths, and says that nothing else gets a report; a test asks for a few paths", "anchors": ["api/api.go:routes", "api/api.go:NewAPI", "api/api.go:getPeers"]}
{"id": "C117", "title": "Addresses in requests may be percent-encoded", "statement": "A client may percent-encode an address in the path or the query of a request, as encodeURIComponent does, and gets the same answer as for the address as it stands.", "quantifier": "every text of an address, every list of query parameters, every content of the databases", "why_tests_cant": "whether the encoded text reaches the handler decoded depends on each of its characters; a test uses one address, usually of version 4", "anchors": ["api/api.go:fork", "api/api.go:forkGenerators", "api/api.go:getPeers", "api/api.go:routes"]}
{"id": "C118", "title": "The exit status tells whether the program worked", "statement": "The process ends with status 0 only after the user asked for help, or after the user's signal and an orderly stop of all services. Whatever keeps it from starting is told on the standard error, with status 1. A failure of the API server gives status 1, a panic status 2.", "quantifier": "every command line, every state of the two databases, every result of opening them and of the first writes, every sequence of events of the running program, working and failing standard error", "why_tests_cant": "a supervisor acts on the status after every possible end; a test runs the process to a few of them", "anchors": ["forkdetector.go:main", "forkdetector.go:run", "forkdetector.go:capitalize", "api/api.go:runServer", "parameters.go:newParameters"]}
{"id": "C119", "title": "The same question gets the same answer while nothing changes", "statement": "Two requests for the same report get the same answer when no block, leash or peer changed between them: the same forks with the same longest one, lengths and last common blocks, the same numbers of short and long forks, the same fork and generators of a peer, the same leashes and peers.", "quantifier": "every reachable store and registry, every two orders in which the runtime visits a map, every two orders of equal elements after sorting, every filter and peer", "why_tests_cant": "the order in which Go visits a map is chosen anew at every call, so a test sees one pair of orders", "anchors": ["chains/linkage.go:forks", "chains/linkage.go:Stats", "chains/linkage.go:Fork", "chains/linkage.go:LCB", "chains/linkage.go:ForkGenerators", "api/api.go:leashes", "api/api.go:status"]}
{"id": "C120", "title": "The database of blocks grows only with new blocks and new peers", "statement": "The database holds exactly two counters, three records for every stored block, two for every head and one for every peer that has a leash, and nothing else. A call adds at most six records, at most one if it brings no new block, and none if the peer is known as well; no failure of a write leaves anything behind; reopening adds nothing. So the size is bounded by the blocks and peers ever named, however often they are repeated, and every record that links a block to its ancestors has at most 32 entries.", "quantifier": "every history of calls with any fates of their writes, crashes and reopenings, fewer than 2^32 blocks", "why_tests_cant": "growth shows after weeks of running, and a record left behind by one rare failure is invisible through the API", "anchors": ["chains/storage.go:putProtoBlock", "chains/storage.go:putMicroBlock", "chains/storage.go:putHead", "chains/storage.go:putLeash", "chains/storage.go:initialize"]}
{"id": "C121", "title": "The database of peers has one record for every peer heard of and nothing else", "statement": "The database of peers has as many records as the list of all peers has entries. No call loses a record; a call adds at most one record for every address it names (the peer that connects, is marked hostile or is dialled, and the addresses of a list), so the size is bounded by the addresses ever named however often they are repeated. There is no other limit: a list of new acceptable addresses is stored in full, however long it is.", "quantifier": "every history of calls of the registry with any fates of their writes, every list of addresses", "why_tests_cant": "growth depends on everything that was ever received, and a limit shows only with lists longer than any test would use", "anchors": ["peers/registry.go:AppendAddresses", "peers/registry.go:RegisterPeer", "peers/registry.go:SuggestVersion", "peers/registry.go:MarkAsHostile", "peers/storage.go:putPeer"]}
{"id": "C122", "title": "The text of a report can be read back as the report", "statement": "Whatever names peers have chosen, the body of every report is one line of UTF-8 that a reader of JSON written from RFC 8259 understands as exactly the values of the report, each under its name and no name twice; the body contains no control characters and none of the characters <, > and &. Two reports of the same kind with the same text are the same report. A report with nothing in it is [] and never null; an unknown score is null. (The fork given for a peer whose leash a failing iteration has missed, C104, has null for its score and its peers.)", "quantifier": "every report that the handlers give in any state reached by any history, every name of a peer, every text of the values that are not modelled (times, IPv6 addresses, versions) under the stated laws", "why_tests_cant": "a test compares the text for a few names; here all byte strings that a peer can send as its name are covered, and reading back is about all texts", "anchors": ["api/api.go:peers", "api/api.go:forks", "api/api.go:leashes", "api/entities.go:headInfo", "chains/entities.go:Fork", "peers/peer.go:Peer"]}
{"id": "C123", "title": "An address that a report shows can be used in a request", "statement": "The address of a peer, copied from a report into the path or the query of a request as it is shown, means that peer: the address is read as the one it stands for, two peers are never shown by the same text, a request for the fork of a peer that the report on leashes shows is not refused with 400 or 404, however blocks arrive meanwhile, and an answer is about the block that this peer is on; several addresses with commas between them select exactly these peers.", "quantifier": "every IPv4 and IPv6 address, every store that any history of calls leads to, every later store at the time of the request, every list of addresses", "why_tests_cant": "There are 2^128 addresses and the text of one depends on which runs of zeros it has; the writer and the reader of the texts are different functions, and only a proof about both excludes that some address is shown in a form that the reader refuses or takes for another one.", "anchors": ["api/api.go:fork", "api/api.go:forkGenerators", "api/api.go:forks", "api/api.go:getPeers", "api/api.go:leashes", "api/api.go:peers", "peers/peer.go:Peer"]}
{"id": "C124", "title": "A time in a report stands for the very millisecond of the block", "statement": "In the reports about forks, heads and leashes the time of a block is a date and time of RFC 3339 which, read by the rules of the Gregorian calendar, stands for exactly the millisecond that the block carries, and in the reports about peers the time of the next attempt stands for exactly that second. There is a text exactly for the times in the years 0 to 9999 of the local time. (RFC 3339 has no seconds in offsets: in a time zone whose offset has seconds the text is wrong by these seconds and by less than a minute.)", "quantifier": "every time, every time zone with offsets of whole minutes and less than a day, changing at any times (daylight saving), every report in any state reached by any history", "why_tests_cant": "tests look at a few dates; leap years, ends of months, centuries, trailing zeros of fractions, negative offsets and changes of the offset are covered for all times at once", "anchors": ["api/api.go:heads", "api/api.go:leashes", "api/api.go:forks", "chains/linkage.go:forks", "chains/linkage.go:safeTimestamp", "chains/entities.go:Fork", "api/entities.go:headInfo", "peers/peer.go:Peer"]}
{"id": "C125", "title": "What is on disk about blocks is read back as it was stored", "statement": "Every record of a block or a link in the database of blocks is written as bytes that are read back as exactly the record: the height, the time, the score of any size, the identifiers and the numbers of the ancestors. No function that reads the database is ever refused a record that the program wrote, and two blocks never have the same bytes.", "quantifier": "every state of the database that is reached by any sequence of calls with writes that succeed, fail or lose their acknowledgement; single records of any size that the format can express", "why_tests_cant": "tests encode a few small records; the shortest forms of numbers at 24, 256, 65536, 2^32 and 2^64, empty slices, 32- and 64-byte identifiers and scores that outgrow 64 bits are covered for all values at once", "anchors": ["chains/storage.go:putBlock", "chains/storage.go:getBlock", "chains/storage.go:putLink", "chains/storage.go:getLink", "chains/storage.go:getHeads", "chains/storage.go:leashes", "chains/storage_entities.go:block", "chains/storage_entities.go:link"]}
{"id": "C126", "title": "What is on disk about peers is read back as it was stored, whatever they call themselves", "statement": "Whatever name and version a peer announces, what is stored about it can be read back, and the list of all peers is never refused. The check of names in putPeer is exactly what this needs: a record can be read back if and only if its name is UTF-8, and one record with another name would make the list of all peers fail.", "quantifier": "every history of calls with names shorter than 2^64 bytes and times in the range of int64 seconds; every address, score, nonce, version and state", "why_tests_cant": "tests use a few ASCII names; names are chosen by strangers, and the encoder accepts names that the decoder refuses", "anchors": ["peers/storage.go:putPeer", "peers/storage.go:peer", "peers/storage.go:peers", "peers/storage.go:hasPeer", "peers/storage.go:value"]}
{"id": "C127", "title": "The bytes on disk are bounded by what the peers talk about", "statement": "The database of blocks has at most 1870 bytes for every block and 374 for every peer ever named, and 748 more; no record in it has more than 374 bytes. The database of peers has at most 87 bytes for every address ever named, besides the longest name and the longest score that a peer sent. Nothing bounds the scores themselves: a peer on record can make its record as large as it likes by announcing one score.", "quantifier": "every history of calls with writes that succeed, fail or lose their acknowledgement, however often the same blocks and addresses are named", "why_tests_cant": "the size after a short test says nothing about years of operation, in which strangers choose what is announced and how often", "anchors": ["chains/storage.go:putBlock", "chains/storage.go:putLink", "chains/storage.go:putProtoBlock", "chains/storage.go:putMicroBlock", "chains/linkage.go:PutBlock", "peers/storage.go:putPeer", "peers/registry.go:UpdatePeerScore", "peers/registry.go:RegisterPeer"]}
{"id": "C128", "title": "Addresses mean the same after every detour through text", "statement": "The program passes addresses on as texts: it parses RemoteAddr().String() of connections, the texts of seed peers, of told peers, of declared and bind addresses, and dials the address that NewTCPAddrFromString reads from AddrPort.String(). After each of these detours the address and the port are what they were: an IPv4 address, also one in sixteen bytes, is read as that IPv4 address, an IPv6 address with its zone as itself; the only seeds that are lost are IPv4-mapped ones with a zone. Every address that the registry gives out is dialled with its own IP and port. MarkAsHostile, which is called nowhere, uses ParseAddr on such a text and therefore always returns an error and changes nothing.", "quantifier": "all addresses of four and of sixteen bytes, all zones, all ports, all command lines, all reachable registries, all texts", "why_tests_cant": "2^144 addresses with ports and any zone; the forms differ in the longest run of zero groups, mapped addresses, brackets, and zones with colons or brackets in them.", "anchors": ["distributor.go:handleConnected", "distributor.go:handlePeersMessage", "peers/registry.go:AppendAddresses", "peers/registry.go:MarkAsHostile", "peers/registry.go:NewRegistry", "respawn.go:establishConnections", "connection_manager.go:Connect", "connection_manager.go:Accept", "parameters.go:parseSeedPeers", "parameters.go:checkBind", "parameters.go:parseAddress", "peers/peer.go:TCPAddr"]}
{"id": "C129", "title": "The log names states and batches of blocks truly", "statement": "The log calls every state of a loader and of a peer and every event by its name, a number that stands for none by this number, and no two numbers alike; making the text never fails. Of a batch of blocks it tells the first and the last id and how many of the requested blocks have arrived, and READY exactly if all have, which is when they are applied, in whatever order and how often the blocks arrive.", "quantifier": "all numbers as states and events, all batches of different ids, all sequences of received blocks; that the text can be made, all queues", "why_tests_cant": "The generated functions cut names out of one long string by a table of positions; a wrong table shows only in states and events that a test does not log, and batches have any number of blocks in any order.", "anchors": ["loading/queue.go:rangeString", "loading/state_string.go:String", "loading/event_string.go:String", "peers/state_string.go:String", "loading/peer_loader.go:requestBlocks", "loading/peer_loader.go:appendBlock"]}
{"id": "C130", "title": "The work for a block or a report grows with the number of peers and the logarithm of the height", "statement": "Finding the last common block of two branches reads at most 5 + 3k records when no stored block is higher than 2^k; storing a block or a micro-block reads at most 8 + k; the last n ids of a chain cost n + 1 records and the generators of its last n blocks 2n + 1, however long the chain; the list of forks costs one record for every peer with a leash and at most 9 + 3k for every peer asked for, and the fork or the last common block of one peer 3 records for every peer with a leash, at most seven more, and 3k. After fewer than 2^k delivered blocks and micro-blocks the store is within 2^k, and since heights are 32 bit numbers no store ever costs more than k = 32. The answers are decided by that many records: a database that agrees on them gives the same answer, whatever else it holds.", "quantifier": "all reachable databases (all databases at all for storing, ids and generators), ids, peers, filters, counts, heights, map orders and sorts", "why_tests_cant": "The number of reads depends on the shape of the tree, the height and the leashes together, and a walk that is a little too long shows no wrong answer; tests run on a few blocks, where a linear and a logarithmic walk cost the same.", "anchors": ["chains/storage.go:lca", "chains/storage.go:fastBackwardFarthest", "chains/storage.go:putNewLinkForBlock", "chains/storage.go:getAncestors", "chains/storage.go:getBlocks", "chains/linkage.go:forks", "chains/linkage.go:Fork", "chains/linkage.go:LCB", "chains/linkage.go:PutBlock", "chains/linkage.go:PutMicroBlock"]}
{"id": "C131", "title": "Loading the history of an honest peer requests only what is missing, and nothing twice", "statement": "During a synchronisation with a peer that answers honestly from one history, every block is requested at most once, in the order of the history, and only if it belongs to the history and was not stored when the synchronisation began - however the peer cuts its answers, whether they overlap, in which order the blocks arrive and whatever other peers deliver meanwhile. If the block with index i of the history was stored at the beginning, at most as many blocks are requested as lie after it, and all messages together are fewer than the length of the history plus the number of missing blocks plus one. A peer whose last block is stored is asked for no block at all.", "quantifier": "all histories, honest sessions of any length and interleaving with other peers, all stores faithful to the history", "why_tests_cant": "A block requested twice is stored without an error and the result is the same; only the traffic grows. Whether it happens depends on how the answers overlap over several rounds; the tests of the loader use one round with a mock.", "anchors": ["loading/peer_loader.go:requestBlocks", "loading/peer_loader.go:appendBlock", "loading/peer_loader.go:requestIDs", "loading/peer_loader.go:requestIDsFromLCA", "loading/queue.go:put", "loading/loader.go:OK", "peers/peer.go:RequestBlock"]}
{"id": "C132", "title": "Only missing blocks are requested, and none twice, while the other goroutines work", "statement": "Take any moment between two events of a synchronisation with an honest peer. The blocks that the loader requests from then on are blocks of the peer's history in their order, each of them at most once, and none that is stored at that moment, whether the loader stored it or the distributor on behalf of any peer. If the block with some index is stored, no more blocks are requested than lie after it; once the last block of the history is stored, none is requested any more. All messages of the synchronisation together are fewer than the blocks of the history plus the blocks that were missing when it began.", "quantifier": "every history, every run of the program before, every interleaving of the calls of the loader with calls of the other goroutines on the store and on the registry that keep the peer on its history, every honest behaviour of the peer", "why_tests_cant": "The distributor stores blocks between any two calls of the loader. Whether a block is requested that has just been stored, or a batch is requested again because the position of the peer has moved meanwhile, depends on the interleaving; tests run the loader alone.", "anchors": ["loading/peer_loader.go:requestBlocks", "loading/peer_loader.go:appendBlock", "loading/peer_loader.go:requestIDs", "loading/queue.go:put", "loading/loader.go:OK", "distributor.go:handleBlock", "chains/linkage.go:HasBlock"]}
{"id": "C133", "title": "In the whole program only missing blocks are requested from an honest peer, and none twice", "statement": "In the program with all its goroutines take any moment of a synchronisation with an honest peer at which the loader handles no event. The blocks that the loader requests from then on are blocks of the peer's history in their order, each of them at most once, and none that is stored at that moment, whoever stored it. If the block with some index is stored, no more blocks are requested than lie after it; once the last block of the history is stored, none is requested any more. All messages of the synchronisation together are fewer than the blocks of the history plus the blocks that were missing when it began. If nobody lies about blocks, nothing further is asked of the other peers.", "quantifier": "every history, every execution of the program before, every sequence of messages of other peers, connections, signals and timers, all failing reads and writes of the other goroutines", "why_tests_cant": "The blocks of other peers reach the store and the loader at any moment of the synchronisation, through the same channel as the blocks of the peer. No test runs the distributor and the loader together.", "anchors": ["loading/peer_loader.go:requestBlocks", "loading/peer_loader.go:appendBlock", "loading/peer_loader.go:requestIDs", "loading/queue.go:put", "loading/loader.go:Run", "distributor.go:handleBlock", "distributor.go:handleMessage", "chains/linkage.go:HasBlock"]}
{"id": "C134", "title": "The messages of the loader are bounded by what it is told", "statement": "Whatever the peers do and whatever fails: after any moment between two events, the loader sends at most one message for every id listed to it since, one for a list without ids, one for every block and one for every firing of the timer that starts a synchronisation; a tick makes it send nothing. It asks for ids at most once after every such input. The blocks that it requests are, in their order, among the ids listed to it, and none is requested more often than it was listed. So in the whole program all messages of the loader are bounded by what the peers have said and the number of synchronisations begun; as long as nobody says anything and the timer does not fire, nothing is sent.", "quantifier": "every execution of the loader and of the whole program, every sequence of messages of honest and lying peers, every interleaving with other goroutines, every failing read and write", "why_tests_cant": "A machine that queues its own triggers may go round: ids bring requests, blocks bring further requests. That no sequence of messages makes it send more than it was told to is a statement about all sequences; tests try a few.", "anchors": ["loading/peer_loader.go:requestBlocks", "loading/peer_loader.go:requestIDs", "loading/peer_loader.go:requestIDsFromLCA", "loading/peer_loader.go:appendBlock", "loading/peer_loader.go:handleFailure", "loading/loader.go:handleIDs", "loading/loader.go:handleBlock", "loading/loader.go:Run", "peers/peer.go:RequestBlock", "peers/peer.go:RequestBlockIDs"]}
{"id": "C135", "title": "The program sends and closes nothing without a cause", "statement": "Whatever peers say and whatever fails, after any moment of an execution: every list of peers goes to a connection that has asked for peers since, and every connection that is closed has come up or broken since, each for a message or a notice of its own and in their order. Pings, which are requests for peers, go to connections that have come up, and there are at most as many as ping times since, multiplied by the connections that have come up. The loader writes to no connection that has not come up. All messages and closings of the distributor and the loader together are bounded by what was said to the program and by the timers. As long as no connection comes up or breaks and nobody says anything, nothing is sent and nothing is closed, however often the timers fire.", "quantifier": "every execution of the whole program from its start, every moment of it, every sequence of messages, connections, signals and timers, every failing read and write", "why_tests_cant": "Output without a cause would come from some state of the registry, the distributor and the loader that no test brings about; the claim is about all states that can be reached.", "anchors": ["distributor.go:handleGetPeersMessage", "distributor.go:handleConnected", "distributor.go:handleInternalError", "distributor.go:pingConnections", "distributor.go:handleMessage", "peers/registry.go:Broadcast", "peers/registry.go:RegisterPeer", "peers/registry.go:UnregisterPeer", "peers/registry.go:Connections", "loading/loader.go:sync"]}
{"id": "C136", "title": "Nothing is written to a connection after it was closed", "statement": "After the program has closed a connection it sends nothing over it: no ping, no list of peers and no request for ids or blocks, and it begins no synchronisation over it. (True of pings and of the beginning of synchronisations as long as reads of the database do not fail, and of pings also when reads fail while the loader is at work, except those of the records of peers whose connections break; in every order of events and whatever writes fail, if the network library reports that a connection came up once, with one address, and before it reports that it broke. False of the beginning of synchronisations if the connection breaks while the loader is choosing the peer. False of lists of peers and of requests of a synchronisation that runs already: messages that were on their way when the connection broke are answered over it. False of pings too when the record of the peer cannot be read as the connection breaks.)", "quantifier": "every execution of the whole program, every order of messages, connections, breaks, dials and timers, every failing write", "why_tests_cant": "The closed connection is forgotten in one goroutine and used in another, and the messages and the notices come through different channels. Which orders of events lead to a write on a closed connection is not seen from single runs.", "anchors": ["distributor.go:handleInternalError", "distributor.go:handleConnected", "distributor.go:pingConnections", "distributor.go:handleGetPeersMessage", "peers/registry.go:RegisterPeer", "peers/registry.go:UnregisterPeer", "peers/registry.go:Broadcast", "peers/registry.go:Connections", "loading/loader.go:sync"]}
{"id": "C137", "title": "No peer loses its connection by what others do or by a failing disk", "statement": "The connection that is listed for a peer stays listed, is pinged every time pings are sent, and is not closed, as long as no connection of its own address comes up or breaks and no dial of its own address fails. Messages, connections, breaks and dials of other peers, the work of the loader in between, and failing reads and writes do not change this, and the record of a listed peer is never lost. Conversely a connection is listed only if it came up with this address and no break or failed dial of this address was reported since, except when the record could not be read.", "quantifier": "every execution of the whole program, every order of messages, connections, breaks, dials, timers and single calls of the loader, every failing read and write", "why_tests_cant": "All goroutines share one map of connections and one database of peers. A test can show that a connection survives one disturbance, not that it survives every sequence of events of all other peers with failures of the disk at any point.", "anchors": ["peers/registry.go:RegisterPeer", "peers/registry.go:UnregisterPeer", "peers/registry.go:MarkAsHostile", "peers/registry.go:UpdatePeerScore", "peers/registry.go:AppendAddresses", "peers/registry.go:TakeAvailableAddresses", "peers/registry.go:SuggestVersion", "peers/registry.go:Broadcast", "distributor.go:handleConnected", "distributor.go:handleInternalError", "distributor.go:pingConnections", "respawn.go:establishConnections"]}
