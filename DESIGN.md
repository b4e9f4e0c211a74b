# Formal model of goloop-havah in Lean 4

## Layout

* `lean/Verif/<Area>/Model.lean` – executable total definitions, each citing file and lines of /repo.
* `lean/Verif/<Area>/Spec.lean` – the small independent specification used in statements (when needed).
* `lean/Verif/<Area>/Lemmas.lean` – helper lemmas.
* `lean/Verif/<Area>/Props.lean` – the property theorems (named in MANIFEST.json) with non-vacuity examples.

## Trusted base

* Lean 4.33.0 kernel, and at most the axioms `propext`, `Classical.choice`, `Quot.sound`.
* The reading of the code: the models are hand written from the text of /repo; nothing is extracted or run.
* Hash functions (SHA3-256) are parameters of the model; a property that needs collision freedom states it
  about the pre-image, or takes injectivity on the reached pre-images as an explicit hypothesis.

## Plan per property

| id | what is modelled | how it is proved |
|----|------------------|------------------|
| C01, C02 | `int_to_bytes`/`bytes_to_int` on `Int` and `List Nat` bytes | arithmetic of base 256, bit-length characterisation |
| C03, C04 | `Address` parse/print and bytes | case analysis; hex digit round trip by induction |
| C05 | RLP string encoder, tag/prefix concatenation | prefix-freeness of the RLP encoding, induction over components |
| C06–C09 | VarDB/DictDB/ArrayDB over a byte-keyed store | refinement to variable/map/list, by induction over operation lists |
| C10 | executor at run time (`Verif/PyExec/Model.lean`): step counter, pipeline, channel | refinement + invariant |
| C11 | same, against the direct semantics of `Verif/PyExec/Spec.lean` | simulation relation, induction over contracts |
| C12 | encode_any/decode_any | structural induction |
| C13 | executor programs (interaction trees) under the read-only flag | induction over programs |
| C14 | event log construction | list lemmas |
| C15 | bloom as natural-number bit set | bit lemmas |
| C16 | call-frame stack of maps | simulation with a stack of snapshots |
| C17 | validator over instruction lists | soundness for bytecode without the bypass, negation witness for the bypass |
| C18–C21 | decision logic | case analysis / structural induction |
| C22–C31, C35–C37 | HAVAH economy (`Verif/Havah/Economy`): record of all variables of hvhstate, balances and supply; every entry point; base transactions; chains as any interleaving of calls and blocks | one inductive invariant (`Inv`) over all steps, exact results of each call and of the base transaction, tracking invariants over histories |
| C32–C34 | validators of HAVAH (`Verif/Havah/Validators`) | invariants by induction over operations |
| C38–C45 | Go common/consensus/service data structures | refinement and invariants |

## Modelled and not modelled

**Economy (C22–C31, C35–C37).** Modelled: `havah/hvh/hvhstate/state.go` 100–830 (planets, rewards, issue, lost,
managers), `planetreward.go`, `havah/hvh/extension.go` 170–590, `havah/hvh/base.go` 291–620 (economy part),
`context.go` (coins), `chainscore_havah.go` 100–355 with `checkGovernance`/`checkNFT`, `platform.go` 96–121.
Not modelled: JSON/codec of the base transaction, events, step charging, nil arguments, Go `int64` overflow of
heights and counters (API arguments are wrapped as in Go), the trie below the containers (C06–C09 cover the
container semantics of the Python side, C40 the trie). Hypotheses of the chain model: no call is made with the
address of the public treasury as sender; genesis has no planets, rewards or started issue.
A base transaction is executed first in a block; calls that fail leave the state unchanged.

**Python executor at run time (C10, C11, C13).** Modelled (`Verif/PyExec/Model.lean`): `icon_score_step.py`
(`IconScoreStepCounter`), `ipc/proxy.py` (set-value pipeline, get/contains/balance requests, read-only right,
nested invocation), `database/db.py` 127–265, `internal_call.py` `message_call`, `service_engine.py`
`_handle_invoke`, rights and charges of `icon_score_eventlog.py` and `set_fee_sharing_proportion`, and the service side of the
channel (`eeproxy/proxy.go` 420–470) with an arbitrary schedule. A contract is an interaction tree (`Prog`) whose
continuations see results and exceptions, so it may catch anything; contracts that do not terminate are not
represented. The channel is reliable and ordered. Answers to `getBalance`/`contains` are arbitrary functions of the store.
Not modelled: message encoding (C12), the layout of events (C14), dispatch inside a contract (C20), threads, debug logging.

**Typed objects (C12).** Modelled (`Verif/Typed/Model.lean`): `encode_any`/`decode_any`/`decode` and `EECodec` in
Python, `EncodeAny`/`DecodeAny`/`TypedObj`/`TypedDict` and `typeCodec` in Go. Not modelled: the msgpack serializers
below (what they deliver is a tree of tags and payloads), floats, cyclic Python objects, lone surrogates in texts.

**Bloom filters (C15).** Modelled (`Verif/Bloom/Model.lean`): `utils/bloom.py`, `txresult/logsbloom.go`, receipts and blocks
accumulating filters, subscriptions in `server/wsevent.go`/`wsblock.go`. SHA3-256 is an arbitrary function. Not
modelled: the compressed storage of filters, conversion of the argument texts of a filter to bytes (`Compile`), `DisableLogsBloom`.

**Type codes (C21).** Modelled (`Verif/Api/Types.lean`): `normalize_type_hint`, `check_if_struct_is_valid`, `_type_hints_to_name`,
`convert_data_type`, Go `DataType`. Self-containing structs are not represented. Finding: nesting 16 lists is accepted
and misread (`C21_deep_list_accepted`).

**Event logs (C14).** Modelled (`Verif/Api/Event.lean`): `eventlog`, `__retrieve_event_signature`, `__resolve_arguments`,
`emit_event_log`, `encode`, the API entry, Go `Signature`, `CheckEventData`, `ValidateEvent`, recording in `OnEvent`. Not
modelled: subclasses of the base types, decorating twice, failures of `eval` on non-functions, lone surrogates in texts.

**Dispatch (C20).** Modelled (`Verif/Api/Dispatch.lean`): decorators, element collection and flag verification, API generation,
Go method map, handlers for transfers, calls, queries and deployment acceptance, `IconScoreBase.__call`. Not
modelled: parameter conversion (C18), steps, contract status, the balance check (arbitrary answer), instances that
replace their own methods.

**Transaction batch (C16).** Modelled (`Verif/Batch/Model.lean`): all of `TransactionBatch` except iteration and length,
with arbitrary keys and values. SHA3 is left out (`digestInput` is what is hashed). The class is not used
elsewhere in the repository.

**Package validation (C17).** Modelled (`Verif/Package/Model.lean`): all of `ScorePackageValidator` on code objects as CPython 3.6-3.10
compiles them, and a nondeterministic machine for one code object (loads, imports, prefixes exact; everything else may do
anything to the stack; jumps and exceptions may lead to any place of a given set). Assumed of the compiler: control does not
enter the middle of an import statement. Not modelled: shadowing of a file by a directory of the same name,
imports made by other means (attributes of objects the contract can reach).

**Unpacking (C46).** Modelled (`Verif/Package/Extract.lean`): `storePython` on the entries the zip reader gives; `filepath.Clean` for absolute
paths; `io.CopyN`. Not modelled: the zip format, symbolic links, the final rename.

**Failure codes (C19).** Modelled (`Verif/Codes/Model.lean`): exception to code, code to Go status, status to caller or receipt, for any
chain of waiting contracts with arbitrary behaviour. Not modelled: timeouts by the clock, fee failures.

**Numbers as text (C38).** Modelled (`Verif/IntCodec/Text.lean`): `intconv/string.go` in full. `math/big.Int.SetString` (with `nat.scan`),
`strconv.ParseInt/ParseUint` (with `underscoreOK`) and the regular expression are transcribed from the Go standard library and trusted.
Texts with underscores are modelled but the exact theorem excludes them.

**Parameters (C18).** Modelled (`Verif/Api/Params.lean`): conversion of JSON parameters, defaults, checks of calls between contracts and of
results, for any declared types; composed with the channel codec (C12), number texts (C38), addresses (C03). `encoding/json` is trusted and the
order in which the fields of a struct are written is left out. The Python-side `TypeConverter` is not used by the
service in this version (parameters always arrive as typed lists) and is not modelled.

**RLP codec (C39).** Modelled (`Verif/Rlp/Model.lean`): the reader and writer of `common/codec/rlp.go`, `encodeValue`/`decodeValue` of
`codec.go` for booleans, sized integers, strings, bytes, `[n]byte`, big integers, slices, arrays, pointers, structs and maps, and the decoder pool of
`bytes.go`. Specification (`Verif/Rlp/Spec.lean`): RLP trees and their wire form, types, membership. Not modelled: types with their own
`RLPEncodeSelf`/`RLPDecodeSelf`, msgpack, the Go `TypedObj`; decoding is into zero values; pointers to nilable types are excluded (`WfTy`).

**Merkle Patricia trie (C40, C47–C49).** Modelled (`Verif/Trie/Model.lean`): all of `common/trie/ompt` for byte-string values: nibble keys,
the node RLP, serialization and deserialization, `get`/`set`/`delete` through leaves, extensions, branches and hash nodes, the writes of `flush`
in order, `GetProof`/`Prove`, the prefix iterator. Specification: a plain map and histories over it (`Verif/Trie/Api.lean`), canonical tries
(`Spec.lean`). The hash is a parameter with 32-byte results; statements that depend on hashes name the colliding strings. Proof: a partly loaded
trie denotes a canonical trie (`Den.lean`), the operations preserve that (`Ops.lean`, `Del.lean`), canonical tries with equal content are equal
(`Lemmas.lean`). Not modelled: the node cache, mutexes, objects other than byte strings, `Resolve`; a byte string given to `Set` is not copied by
Go, here it is a value.

**Bit arrays and vote sets (C43, C41).** Modelled (`Verif/Consensus/BitArray.lean`, `VoteSet.lean`): all of `consensus/bitarray.go` with
64-bit words and panics; `voteSet` with its counters, cached maximum and mask; `VerifyBlock`, `enoughVote` and `Timestamp` of commit vote lists.
Specification: `Made n S b` (arrays reachable by the API, with the set they stand for), `Built` (vote sets reachable by adding votes, with the
current vote of each validator). Parameters: the round decision, its digest and part set id; the address recovered from a signature.
Not modelled: network-type-section proofs, the encoding of vote lists.

**Part sets (C42).** Modelled (`Verif/Consensus/PartSet.lean`): all of `consensus/partset.go`, on top of the trie model (C40, C48) and the RLP
model (C39); the receiver's trie keeps the nodes loaded by earlier proofs (`PNode`, `proveS`). Proof: a receiver's trie simulates one of which only the root
hash is known (`proveS_sim`), for which C48 holds. The recursion bound `f` of the proof check is arbitrary above the depth of the keys.

**Deposits, fee sharing and fees (C45, C51, C52).** Modelled (`Verif/Service/Deposit.lean`, `FeePayer.lean`, `TxFee.lean`): deposit lists;
call frames with their payers, which are Go pointers shared between lists and therefore indices of a heap; `PaySteps`, logs and the receipt; transfer and
deposit handlers; snapshots of frames; the charging loop with an arbitrary bound on its turns (C52_executes shows it ends); the treasury; revision flags.
Not modelled: what a contract computes (any sequence of operations), event logs, the step counter itself (any numbers with callee steps included in
the caller's), database failures, and the `legacy` flags of ICON except to show what goes wrong with them.

**Merkle accumulator (C44).** Modelled (`Verif/Mta/Model.lean`): all of `common/trie/mta/accumulator.go`, with nodes loaded lazily from the
bucket and Go's `copy` into fixed buffers. Not modelled: int64 overflow of lengths, JSON of the stored state, failures of the bucket. Proof: the
roots are the binary digits of the number of leaves (`Rep`), each standing for a perfect tree (`Full`).

**Consensus engine (C53–C56).** Modelled (`Verif/Consensus/Engine.lean`): the round state machine of `consensus/consensus.go` at one height for
every node, with the handlers of votes, proposals, block parts, fast-sync blocks, timers and import results, the three write-ahead logs with their sync
points, crashes that lose any unsynced suffix, and `Start` with `applyWAL`. The recursion of handlers through `sendVote` is unfolded into single
steps, and a crash may happen between any two. The network delivers any vote of a faulty validator and any vote a correct one has sent, late,
repeated or reordered. Not modelled: signatures (only the named signer can produce a vote), syncer, regulator, metrics, double-sign log, failing WAL
writes, `int32` overflow, moving on to the next height. `Cfg.Sound` assumes that equal digests of votes mean equal part set ids. Proof: an
invariant on own votes and logs (`EngineOwn`), that all stored votes were sent (`EngineNet`), the lock invariant with quorum intersection
(`EngineLock`, `EngineProps`), and validity (`EngineValid`). C54 needs a condition on restarts; C55 is the execution that breaks agreement without it.

**Replay protection (C57, C58).** Modelled (`Verif/Service/Locator.lean`): the locator manager of `common/txlocator/manager.go` for normal transactions
(map of locators, flush queue and worker, cache of lists with expiry, `maxTSInDB`, trackers of uncommitted blocks), the range check of time
stamps, the order of commit and finalization in the block manager, and the restart that commits the last block again. A crash may come between any
two writes. A transaction's time stamp is a function of its id (a hash of the contents). Not modelled: patch transactions, the dropped-transaction
cache, errors of single database reads. A block imported by force is assumed to be acceptable (C56 says some correct validator checked it). Proof: the
blocks since the restart are split into dropped, cached and unwritten ones (`Split`).

**Write-ahead log (C59, C60).** Modelled (`Verif/Consensus/Wal.lean`): frames, the buffered writer (when the buffer spills is free), `Sync`, rotation and removal by the
housekeeper with its unlocked reading of the directory, the reader with the Go rules for `io.EOF` and `io.ErrUnexpectedEOF`, `CloseAndRepair` as it is written (it
removes `idx`, not `i`), and the start of the engine, which ignores `IsNotExist`. A crash keeps any prefix of a file with the synced bytes, and may come again before these are
synced. Not modelled: errors of the file system, durability of directory entries, times. The checksum is a parameter; CRC-32C itself is defined for the
examples. Proof: the files are whole frames except the last (`Files`), every step keeps this (`WalStep`). The assumption of the engine model (C53–C56) that a
synced lock is there after a restart is C59 up to the crash points of C60.

**Concurrent execution (C61, C62).** Modelled (`Verif/Service/Virtual.lean`): virtual world states with their locks, dependencies, read-only cache, snapshots, reset,
commit and realization; the main loop that prepares transactions in the order of the block and the goroutines that execute them. A transaction is any
program over accounts; each method is one atomic step, since it holds the mutex, and a method that waits is not enabled. Not modelled: what is inside of an
account, cancellation, the limit of goroutines. Proof: an invariant with a ghost world for each transaction (`VirtualInv`): the real world agrees on each account with the
ghost world of the first transaction that may write it and is not committed (`own`), and a transaction that must still wait for an account sees its
sequential value there. Findings: a read lock of the world locks nothing out; `Report` records an error only if there is one already.

**Transactions: what is signed and what is admitted (C63, C64).** Modelled (`Verif/Tx/Serialize.lean`): the text of a JSON value, of a binary version 3 transaction
and of one in JSON form; strings are lists of characters, `float64` is any type with any conversion to integers, maps are lists of entries in the order
of the keys. The specification is the normal form `norm`. Proof: a text followed by a delimiter determines the normal form (`ser_inj`, by mutual
recursion); the raw data type ends at the last `.from.`, by counting a letter that occurs in no number or address. `Verif/Tx/Admit.lean`: `Verify`,
`PreValidate`, `GetHandler`, `validateTxs` and the sequential executor; the JSON parser, the signature and the execution itself are parameters. Finding: `Verify` has
no case for unknown data types, but `NewHandler` fails for them, which makes the whole block fail.

**Calls between contracts (C65).** Modelled (`Verif/Call/Model.lean`): the stack of frames and the message loop of `callContext` as a step function; contracts are
programs with arbitrary observations (well-founded trees), asynchronous (execution environment) or synchronous (Go); the world is any type and a snapshot is a value. Specification:
`eval`, the nested meaning of calls, by structural recursion. Proof: the machine reaches the state the nested meaning gives (`does`, induction on the
program; a frame that is cleaned up passes the abortion on to its asynchronous parents). The consequences are proved of `eval`.

**Block time (C66).** Modelled (`Verif/Consensus/BlockTime.lean`): the median of vote times with 64-bit overflow and truncated division, the verification of a vote
list (signers distinct, validators, more than two thirds), the check of a block's time, the time a validator votes with, the transaction range. Proof: counting elements of the sorted list.

**Transaction pool (C67).** Modelled (`Verif/TxPool/Model.lean`): the doubly linked lists of all transactions and of each sender with their pointers (a function of addresses
for each field), the maps, the Bloom filters with their bits and chains, and every loop of the pool. Specification (`Spec.lean`): a plain list of entries. Proof (`ListProof.lean`, `Refine.lean`): representation
invariant of the pointers, simulation of every operation; the theorems (`Props.lean`) are for all histories.

**Waiting for results (C68).** Modelled (`Verif/TxPool/Waiters.lean`): `TransactionManager` and what the pool and `Finalize` do around it as a transition system; a step is what one thread does
under one mutex. Proof: an inductive invariant over all reachable states.

**Synchronization (C69).** Modelled (`Verif/Sync/`): the Merkle builder with its request list, mark and requesters, the layer database below it, the loop that hands data of peers to it; the
requesters of the trie. What other requesters (accounts, contracts, receipts, BTP digests) ask for is a parameter. Not modelled: database errors, the pool of peers and its timers. Proof: an
invariant (below every stored node of the universe, each child is stored or requested) over all histories.

**World state in memory (C70).** Modelled (`Verif/WorldState/`): account states with their last snapshot, the world state with its map of account states, its map of last snapshots and its trie
(as a map with a `Set` that keeps the old value if it is `Equal`), detached account states. Not modelled: see MANIFEST. Proof: refinement of a plain map of accounts by an invariant over histories.

**Deployment (C71).** Modelled (`Verif/Deploy/`): deploy, accept and reject handlers, change of owner, native contracts of the genesis, over the accounts of C70, with calls nested as
the engines nest them (a mutual recursion over trees of calls). Proof: a log of events is kept; by induction over the tree of calls the log is a legal history of each contract slot and the accounts
show what the slot has. Addresses: the preimage is injective for the nonces and salts that fit.

**Merkle trees of BTP (C72).** Modelled (`Verif/BtpMerkle/`): the loops over the byte buffer that is overwritten level by level, for root and proof, and the check of signatures. Proof: each pass
turns the front of the buffer into the next level; trees by induction, soundness by induction over the tree with the collision made explicit.

**BTP networks (C73).** Modelled (`Verif/Btp/`): opening, closing, messages and keys with the marks they set, the end of a block (marks of changed validators and keys, update of network types and
networks, building and application of the section, all loops over maps in any order), the map of proof contexts. Not modelled: codecs, digests (hashes of sections are a function of their content), who may call. Proof:
an invariant of the state during a block (`Mid`, `Cur`), a characterization of the end of a block without orders (`Done`), and an invariant between blocks (`Inv`).

**Dropped transactions (C74).** Modelled (`Verif/Dropped/`): the cache with its list and map of slots by reference, the check before a transaction enters the pool, commit of a logger. Not modelled: int64 overflow,
the locator manager (C57). Proof: an invariant that list and map agree and a refinement to a specification that only reads the history of calls.

**Compression (C75).** Modelled (`Verif/Lzw/`): the LZW writer (bit buffer, hash table with linear probing, widths, clear code) and reader (bit buffer, prefix and suffix arrays, output buffer) as used by
`Compress` and `Decompress`. Not modelled: LSB order and other literal widths (not used), I/O errors. Proof: bits as lists of booleans; the hash table refines a dictionary (pigeonhole for free places);
a synchronization invariant with the reader one entry behind the writer; for arbitrary data an invariant that prefix chains descend.

**Validator list memory (C76).** Modelled (`Verif/VList/`): the heap of `validatorlist.go`: array store, list objects, snapshots, states, the bucket; `append` in place when capacity allows.
Specification: plain lists (`Spec.lean`). Proof: a relation (every reachable object holds a duplicate-free list, no two objects share an array, an object of a state without snapshot has no other user) kept by every call.
Assumed: `dec (enc l) = l`, non-empty encodings and hashes. Not modelled: locks, foreign validator types, the builder path, database errors. This justifies the plain-list `ValidatorState` used for C32–C34.

**Block tree (C77).** Modelled (`Verif/BTree/`): the `bnode` tree of `block/manager.go` as a heap with parent and child pointers, reference counts and the map by ID; import and propose tasks with their transition handles; `Finalize`, `Term`, `Dup`, `Dispose`.
Specification (`Spec.lean`): the blocks needed, in terms of the parent relation, the last finalized block and the undisposed candidates. Proof: a tree invariant with a set of nodes being removed, kept by the cascading `unrefNode`; the recursion bounds of the model are shown to suffice (`stuck` stays false).
Assumed: no cycle of block IDs (hashes); candidates are disposed once. Not modelled: sharing of executions between handles, errors of the database in `Finalize`, proof context maps, callbacks on finalization.
Finding: `addNode` is called with a nil parent if the parent was pruned or released while the task was open ("TODO notify import/propose error due to finalization"); `consensus.go` cancels its request before it imports or finalizes another block, so it does not run into this.

**Shared executions (C78).** Modelled (`Verif/Trans/`): `transitionImpl` and `transition` of `block/transition.go` as two heaps; the steps, reports and canceler of the executor (`service/transition.go`), with the delay between its decision and the call of the manager.
Specification (`Spec.lean`): who holds an execution, which reports arrived while somebody held it (a history beside the state), what each callback was told, how a request is served. Proof: one invariant over all events.
Not modelled: `verifyResult`, what an execution computes, re-entry from callbacks (they only queue functions), the method `cancel` used alone (no caller).

**Database layer (C79).** Modelled (`Verif/LayerDB/`): `layerBucket` and `layerDB` of `common/db/layer_db.go`, with the heap of list elements and the maps into it; failures of writes to the database below; writes of others to it.
Specification (`Spec.lean`): the content of the disk, the list of pending writes, and if writes go through. Proof: a refinement; the list holds the writes that no later one overwrites, in order.
Not modelled: locks (operations are atomic), flags, errors of reads and of `GetBucket` of the database below.

**Network queues (C80).** Modelled (`Verif/NetQueue/`): all of `network/queue.go` but `ChannelQueue` and `Close`: ring buffers, the three queues, the channel of one value that wakes consumers.
Specification (`Spec.lean`): lists with a capacity, whose turn it is and how often it was served; consumers that receive from the channel and then call `Pop` at least once. Proof: a refinement of the rings to lists, an invariant for the wake-ups, and a potential for fairness.
Not modelled: the race of `SetWeight` (it takes no lock, and nothing calls it), nil contexts (nobody pushes one).

**Fast sync client (C81).** Modelled (`Verif/FastSync/`): all of `consensus/fastsync/client.go` and `heightset.go`: requests, their height sets, peers and fetchers with timers and messages, the window of ten pending results, Consume and Reject.
Specification (`Spec.lean`): the history: what was handed over and not answered, what was consumed, which heights a rejection dropped, all callbacks. Proof: an invariant that each height from the next one up to the first not asked for is in exactly one place (to be asked for again, being fetched, pending, or dropped), and that nothing more can be asked for after each event.
Found: `Reject` does not put back the height the rejected peer was fetching (`found_lost`, `lost_forever`); a first send that fails for good leaves a dead fetcher in its peer.
Not modelled: encodings, cancel messages, what blocks contain (`parse` is any function), the server side.

**Streams (C82).** Modelled (`Verif/Streams/`): all of `network/stream.go` but the encoding and the end of a stream: numbers of 16 bits, the list of what is not acknowledged, both timers, sending again, failures of `Unicast`.
Specification (`Spec.lean`): two streams and a connection that keeps the order and loses anything; the history: what was sent, and what the other side took at each place. Proof: an invariant with unbounded numbers (`End.lean`): all messages on the way carry a number and an acknowledgement within a window of 65535 of the receiver's.
Found: an acknowledgement carries the number of the last message sent, and `receive` takes it as that message when that one is lost (`found_swallowed`); after a failed post in the acknowledgement timer the timer stays non-nil and never fires again until something else is posted.
Not modelled: encoding, leaving and disposal, several peers, a message of the user that is nil.

**Double signs (C83).** Modelled (`Verif/Caches/Random.lean`, `Verif/Dsign/`): when two messages conflict, the cache with random eviction and the log on it, the history of validator lists on the chain, and executing a report.
Specification: `Double` (what a double sign is), `Log` (what came and what was reported), `Pushed` and `inForce` (what was pushed block after block, and what was in force at a height), `changes`. Proof: invariants of the cache (keys once, sum of costs), of the log, and of the history (the last twenty changes; what it gives is what was in force).
Found: `dsVote.IsConflictWith` takes both network ids from the first vote and `ValidateNetwork` is always true, so votes of one signer on two networks are a double sign (`found_networks`); nothing in the handler keeps a report from being executed again (`found_again`).
Not modelled: encodings, signatures, the chain SCORE that punishes, fees.

**Waiting double sign reports (C84).** Modelled (`Verif/Dsign/Pool*.lean`): all of `service/dsrmanager.go` (the two lists in order, the map, the first height; trackers, their parents, and commits).
Specification (`PoolSpec.lean`): the history: what each branch has, what was added, what was committed, the highest first height. Proof: invariants of the manager (what waits is what was added, not committed and not below the first height) and, for each tracker, that what its branch has is in it, in its parent's branch, or committed.
Found: `Candidate` takes reports from the first height of the history on, and `verifyHashOfHeight` looks two heights below; the execution of such a report gives an error and fails the whole block (`found_block_fails`).
Not modelled: the data of reports, transactions.

**Packet pools (C85).** Modelled (`Verif/Packets/*.lean`): `PacketPool` and `TimestampPool` of `network/pool.go`, all operations (rings of buckets, the walk back from the current one, removal by time).
Specification: the list of what was put since the last clear (and, with seconds, after what was removed). Proof: the ring, read backwards, is a list of groups; each operation is shown on the groups.
Seen: `Clear` does not reset the length of the first bucket, so that one rotates early; the bounds hold all the same, as the buckets filled after it are full before it is reused.
Not modelled: collisions of the packet hashes, locks (each operation is atomic), a clock that goes back.

**Cache of block parts (C86).** Modelled (`Verif/Caches/Lru.lean`): all of `common/cache/costerlru.go` (the map of elements, the list, what an element holds, the sum, the loop that throws out).
Specification: the history of uses (stored values and hits). Proof: the cache is always a first part of the keys in the order of their last uses; after a put it is the longest that fits.
Seen: a value that is too costly is not stored and the old value of its key stays (`lru_stale`).
`Verif/Caches/Parts.lean` models `consensus/bpmcache.go`, with the decoding of a part and the hash as given functions.
Found: `bpmCache.Put` takes `Proof[0]` without a check, and `BlockPartMessage.Verify` (message.go:233) does not ask for a proof; so a peer's message with an empty proof, for a height from the current one on, panics in `ReceiveBlockPartMessage` (consensus.go:456) (`bpm_panic`). The key has the index of the message, not of its part.

**Lists of votes (C87).** Modelled (`Verif/Votes/*.lean`): `consensus/votelist.go` (`AddVote`, `Get`, `Verify`, with the conversion to `int16`), `voteBase.Equal`, `newCommitVoteList` with a context map, and `toVoteList` (the choice of network types, the parts of each validator, the votes).
Specification: the list of votes itself. Proof: an invariant of a list that holds given votes; proofs are shown to have each part at its validator.
Assumed: the digest of a decision is injective (see `RoundDecisionDigest`).
Not modelled: codecs, `NewBTPContext`, errors of `NewProofFromBytes`, a nil context map; an error and a panic of `newCommitVoteList` are both no result.

**Regulator (C88).** Modelled (`Verif/Regulator/*.lean`): all of `chain/regulator.go` (the ring of thirty entries, the running sum, the limit, intervals and waiting times).
Specification: `window`, the last thirty of the list of executions. Proof: the ring, read from the current place, is the end of the list; the sum is that of its entries.
Found: the limit can go down to ten or less (even to zero, when the interval is made shorter), and blocks of ten or less are ignored, so then it never goes up again unless some block has more (`reg_stuck`).
Not modelled: overflow (an interval times a count), real clocks.

**Trie node cache (C89).** Modelled (`Verif/NodeCache/*.lean`): `indexByNibs`, `sizeByDepth`, and `Get`, `Put`, `read`, `write` of `BranchCache`, with the file as bytes.
Specification: the list of puts. Proof: an invariant on each slot: empty (zeros) or the last put that fits.
Found: the item at the end of the file is shorter than the slot, so reading it gives the end of the file: a miss, until something is written behind it.
Not modelled: errors of the file.

**Full trie cache (C90).** Modelled (`Verif/NodeCache/Full.lean`): all of `fullcache.go`, with the list and map of deep nodes as one list of pairs, without counters.
Specification: the list of puts (those in memory before the migration), and `FSteps`, a number of operations. Proof: an invariant; for the eviction, the number of nodes behind one in the list grows by at most one.
Found: `NewFullCacheFromBranch` takes over the array if the depth, with the levels of the file, is five; if some are in the file the array is too short, and an access panics (`full_panic`). The options of the node (5+0, 5+1) do not lead there.

**Validators (C32–C34).** Modelled: `hvhstate/state.go` 800–1437, `validatorstatus.go`, `validatorinfo.go`,
`networkstatus.go`, `grade.go`, `hvh/decentralization.go`, `extension.go` 595–895, validator part of `base.go`,
`chainscore_havah.go` 364–498, `chainscore_basic.go` 330–391, `service/state/validatorlist.go` (`ValidatorState`).
Go map iteration is a parameter of every block (an arbitrary permutation). Public keys are represented by the
node address they determine; BTP key presence is an arbitrary predicate per block. Not modelled: events, step
charging, `nil` arguments, overflow of `int64` counters, record versions.
Findings proved as theorems: positions of replacements depend on Go map iteration (`C34_order_not_deterministic`),
a missing BTP key or an unregistered consensus validator makes the term-start base transaction fail
(`C34_missing_key_blocks_term`, `C34_unowned_validator_blocks_term`), a key change keeps a disabled validator
active (`C34_disabled_stays_active`), `unregisterValidator` can empty the set (`C34_unregister_empties`),
`enableValidator` by an enabled owner resets the miss counter (`C33_self_pardon`).
