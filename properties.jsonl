{"id": "C01", "title": "Integer wire codec round-trips", "statement": "Encoding any Python integer to bytes for the database or the IPC channel and decoding the bytes gives back exactly the same integer.", "quantifier": "every integer, of any sign and magnitude", "why_tests_cant": "the domain is infinite; errors live at the byte-length boundaries 2^(8k-1) for every k", "anchors": ["pyee/pyexec/utils/__init__.py: int_to_bytes, bytes_to_int, byte_length_of_int", "pyee/pyexec/ipc/proxy.py: int_to_bytes, bytes_to_int"]}
{"id": "C02", "title": "Integer wire encoding is canonical (shortest) and unique", "statement": "The encoding of an integer is the shortest two's-complement byte string that decodes to it, never empty, and two integers share an encoding only if they are equal.", "quantifier": "every integer and every byte string that decodes to it", "why_tests_cant": "needs a comparison with all byte strings of all lengths", "anchors": ["pyee/pyexec/utils/__init__.py: byte_length_of_int", "common/intconv/bytes.go: BigIntToBytes"]}
{"id": "C03", "title": "Address text form round-trips and is validated", "statement": "Address.from_string accepts exactly the 42-character strings 'hx'/'cx' followed by 40 lower-case hex digits; printing an accepted address returns the same text, and parsing a printed address returns the same address.", "quantifier": "every string and every address", "why_tests_cant": "acceptance is a property of every string", "anchors": ["pyee/pyexec/base/address.py: Address.from_string, is_icon_address_valid, __str__"]}
{"id": "C04", "title": "Address binary form round-trips", "statement": "Address.from_bytes(to_bytes_including_prefix(a)) = a for every address; 20-byte bodies are read as EOA; contract and user addresses with the same body are different addresses and have different binary forms.", "quantifier": "every address and every byte string", "why_tests_cant": "all byte strings of all lengths", "anchors": ["pyee/pyexec/base/address.py: Address.from_bytes, to_bytes_including_prefix, from_prefix_and_int"]}
{"id": "C05", "title": "Container database keys never collide before hashing", "statement": "Two accesses by a SCORE through VarDB, ArrayDB or DictDB reach the same database slot (before hashing) only if they use the same container kind and the same sequence of encoded key components.", "quantifier": "every pair of containers, nesting paths and keys, of every length", "why_tests_cant": "collision-freedom ranges over all pairs of unbounded byte strings", "anchors": ["pyee/pyexec/database/db.py: rlp_encode_bytes, concat_encoded, IconScoreDatabase.get_sub_db, _hash_key", "pyee/pyexec/iconscore/icon_container_db.py"]}
{"id": "C06", "title": "DictDB behaves like a map", "statement": "For any sequence of writes, deletes, reads and membership tests on a DictDB, reads return the last value written under that key (or the type default when none), and membership tells exactly whether a value is stored.", "quantifier": "every sequence of operations, keys and values", "why_tests_cant": "histories are unbounded", "anchors": ["pyee/pyexec/iconscore/icon_container_db.py: DictDB"]}
{"id": "C07", "title": "ArrayDB behaves like a list", "statement": "For any sequence of put, pop, set-item, get-item, len and iteration on an ArrayDB, the observable results are those of a list: len counts elements, put appends, pop removes and returns the last, negative indices count from the end, out-of-range indices raise, and no other element changes.", "quantifier": "every sequence of operations and every index", "why_tests_cant": "histories and indices are unbounded", "anchors": ["pyee/pyexec/iconscore/icon_container_db.py: ArrayDB"]}
{"id": "C08", "title": "VarDB behaves like a variable", "statement": "VarDB.get returns the last value set and not removed since, and the default of its type when there is none.", "quantifier": "every sequence of set/remove/get and every value", "why_tests_cant": "histories are unbounded", "anchors": ["pyee/pyexec/iconscore/icon_container_db.py: VarDB"]}
{"id": "C09", "title": "Containers with different names are isolated", "statement": "An operation on one container never changes what any read of a container with another name, kind or path returns.", "quantifier": "every pair of containers and every operation sequence", "why_tests_cant": "interference needs all pairs of names and histories", "anchors": ["pyee/pyexec/iconscore/icon_container_db.py", "pyee/pyexec/database/db.py"]}
{"id": "C10", "title": "Steps charged never exceed the step limit", "statement": "With a price table in which overwriting or deleting a value is not charged: the steps reported as used by an invocation never exceed its step limit (they may be negative, by refunds). After any history, a charge succeeds exactly if that many steps are left once all outstanding refunds are counted, and takes exactly its amount; otherwise it raises OutOfStep and the whole limit is used.", "quantifier": "every contract (sequence of API calls, nested calls, caught exceptions), limit, pipeline depth and schedule", "why_tests_cant": "all sequences of charges", "anchors": ["pyee/pyexec/iconscore/icon_score_step.py: IconScoreStepCounter"]}
{"id": "C11", "title": "Pipelined writes cost the same as synchronous writes", "statement": "With a price table in which overwriting or deleting a value is not charged, an invocation ends with the same status, steps used, stored values and messages as if every request had been answered at once and every write charged its final price: neither the depth of the set_value pipeline nor the timing of replies can be observed; reads see all earlier writes.", "quantifier": "every contract, pipeline depth, schedule of replies, store and limit", "why_tests_cant": "every interleaving of requests and replies", "anchors": ["pyee/pyexec/ipc/proxy.py: ServiceManagerProxy.set_value, __handle_set_values, get_value", "pyee/pyexec/database/db.py: ContextDatabase.put"]}
{"id": "C12", "title": "Typed IPC objects round-trip", "statement": "Any value made of None, booleans, integers, strings, bytes, addresses, lists and string-keyed maps survives encode_any followed by decode_any.", "quantifier": "every such value, of any nesting depth", "why_tests_cant": "values are unbounded trees", "anchors": ["pyee/pyexec/ipc/proxy.py: encode_any, decode_any"]}
{"id": "C13", "title": "Read-only execution never writes", "statement": "Whatever a contract does, every value set or deleted and every event sent comes from a call that is neither in query mode nor inside a read-only method, and every fee setting from a call not in query mode; a query as a whole, including the contracts it calls, sends none of these and leaves the store unchanged; the write right is exactly what it was when a call returns or raises.", "quantifier": "every contract behaviour, nesting depth and exception point", "why_tests_cant": "all programs and all nesting", "anchors": ["pyee/pyexec/ipc/proxy.py: set_value, send_event", "pyee/pyexec/database/db.py: _is_inside_readonly_func/put/delete", "pyee/pyexec/iconscore/icon_score_base.py", "pyee/pyexec/service_engine.py"]}
{"id": "C14", "title": "Event-log layout", "statement": "An emitted event carries its signature first, then exactly the declared number of indexed arguments, then all other arguments in the order of the declaration; every positional argument and every argument given by a parameter's name appears at its parameter's place, unchanged; more than three indexed arguments, too many, missing, duplicated or wrongly typed arguments are rejected; the reserved transfer signature cannot be emitted by a contract; the size charged is the number of bytes sent; and the service records every emitted event of a declaration with a non-negative index count. (An argument whose name is no parameter may be dropped; a negative index count loses all events.)", "quantifier": "every event declaration and argument list", "why_tests_cant": "all argument lists", "anchors": ["pyee/pyexec/iconscore/icon_score_base.py: eventlog, __resolve_arguments", "pyee/pyexec/iconscore/icon_score_eventlog.py: emit_event_log", "pyee/pyexec/ipc/proxy.py: encode, send_event", "service/scoreapi/method.go: CheckEventData, ValidateEvent, Signature", "service/scoreapi/info.go: CheckEventData"]}
{"id": "C15", "title": "Bloom filters have no false negatives", "statement": "After any sequence of additions, every added item is reported as contained, and the union of two filters contains every item of each; the executor and the service set the same bits; the filters of receipts and blocks never hide an event from a subscription that wants it, and a subscription is notified of exactly the events it wants.", "quantifier": "every sequence of items", "why_tests_cant": "all sequences", "anchors": ["pyee/pyexec/utils/bloom.py", "service/txresult/logsbloom.go", "service/txresult/receipt.go: AddLog", "server/wsevent.go", "server/wsblock.go"]}
{"id": "C16", "title": "Transaction batch call frames roll back exactly", "statement": "Reverting a call discards exactly the writes made since that call was entered (including those of its committed children), and leaving a call keeps them; reads see the most recent write that has not been rolled back.", "quantifier": "every nesting of enter, leave, revert, put and delete", "why_tests_cant": "all nestings", "anchors": ["pyee/pyexec/database/batch.py: TransactionBatch"]}
{"id": "C17", "title": "Contract imports are restricted to the whitelist", "statement": "In a package accepted by the validator every import statement of every source file that runs (at any nesting) is relative to the contract's own package or imports iconservice (as a whole or by star), and no code uses the names exec, eval, compile or __import__; every source file is checked. Exceptions, also proved: modules with more than 256 constants can import anything, __init__.py files are run before they are checked, files that are not .py are not checked.", "quantifier": "every package, code object and execution (jumps and exceptions included)", "why_tests_cant": "adversarial bytecode", "anchors": ["pyee/pyexec/iconscore/score_package_validator.py: execute, _validate_import_from_code, _validate_import"]}
{"id": "C18", "title": "Parameters and results of calls match the declared types", "statement": "A request is accepted exactly when its parameters are a list or an object giving every mandatory parameter, each with a JSON value of the declared type (integers and booleans as number texts, bytes as hexadecimal, addresses strictly, structs with all fields, lists), and nothing undeclared unless that is allowed; the Python function then receives exactly one value per declared parameter, the one the JSON text denotes or the declared default. Calls between contracts are checked in the same way against the types, and results against the declared result types. Exceptions, also proved: null replaces a non-None default; unknown names are ignored in calls by name between contracts.", "quantifier": "every declared function (any nesting of lists and structs), every JSON value, every value sent by a contract, every result", "why_tests_cant": "all strings", "anchors": ["service/scoreapi/method.go: ConvertParamsToTypedObj, ConvertJSONToTypedObj, ConvertBytesToTypedObj, EnsureParamsSequential, ValidateInput, EnsureResult, ValidateOutput", "common/hexint.go", "common/hexbytes.go", "pyee/pyexec/ipc/proxy.py: __encode_inputs, decode_any"]}
{"id": "C19", "title": "Failure codes stay in the reserved ranges", "statement": "A revert with any integer code that no caller handles is reported in the receipt as 32 plus the code, cut to the range reserved for contracts (32 to 999, or 99 before the extension), through any number of nested calls; callers see the same code; every plain exception is reported as a failure between 1 and 999 and system failures keep their code. Exception, also proved: a contract that overrides the code of its exception can cause a critical failure or a success.", "quantifier": "every integer code, every chain of calling contracts and what they do with the failure", "why_tests_cant": "all integers", "anchors": ["pyee/pyexec/base/exception.py: IconScoreException, IconServiceBaseException.create", "pyee/pyexec/service_engine.py: _get_status_from_exception", "service/eeproxy/proxy.go: StatusToCodeAndFlag, HandleMessage", "service/contract/callcontext.go: validateStatus, handleResult", "service/scoreresult/errors.go: StatusOf", "service/transaction/transactionhandler.go: DoExecute, Execute"]}
{"id": "C20", "title": "Only declared external methods can be called from outside", "statement": "A message can only run a method marked external that it names; coins can only be received by a payable method; the fallback runs only for transfers that name no method and only if payable; on_install/on_update are run by deployments only; read-only methods run in read-only mode, and from read-only mode (queries included) only read-only methods can be run. For classes without aliases exactly these calls succeed. (A contract can pass a negative value to any external method.)", "quantifier": "every contract class (any decorators, names, aliases), request, value, caller mode and revision flag", "why_tests_cant": "all combinations of flags", "anchors": ["pyee/pyexec/iconscore/icon_score_base.py: external, payable, __call", "pyee/pyexec/iconscore/typing/element.py: create_score_element_metadata", "pyee/pyexec/iconscore/typing/definition.py: get_score_api", "service/scoreapi/info.go: buildMethodMap", "service/contract/callhandler.go: ensureMethodAndParams, TransferAndCallHandler", "service/contract/contractmanager.go: GetHandler, GetCallHandler", "service/queryhandler.go"]}
{"id": "C21", "title": "Type descriptors are decoded exactly", "statement": "A parameter hint is accepted exactly if it is a base type, the text 'Address' at the top, a valid struct, or a list or optional of an accepted hint; the type code sent to the service encodes list depth and element type (Optional[T] shares the code of T), different depth/element pairs have different codes, and for list depths up to 15 the service reads back the same type name. Beyond depth 15 the service misreads the code.", "quantifier": "every type hint of any nesting depth", "why_tests_cant": "unbounded nesting", "anchors": ["pyee/pyexec/iconscore/typing/definition.py", "pyee/pyexec/iconscore/typing/element.py", "pyee/pyexec/pyexec.py: convert_data_type, convert_inputs", "service/scoreapi/method.go: DataType"]}
{"id": "C22", "title": "Coin conservation", "statement": "Every transfer leaves the total amount of coins unchanged, issue and burn change it by exactly the amount issued or burned and adjust the reported total supply by the same amount, and no balance ever becomes negative.", "quantifier": "every history of transfers, issues and burns between any accounts (including self-transfers)", "why_tests_cant": "unbounded histories", "anchors": ["havah/hvh/context.go: callContextImpl.Transfer, Issue, Burn"]}
{"id": "C23", "title": "The public treasury can always pay claims", "statement": "At every block the public treasury holds at least the rewards credited to planets, the unclaimed remainder of the current term, the ecosystem reward and the lost coins, so that no claim fails or silently loses coins.", "quantifier": "every history of issues, reports, claims, registrations and blocks", "why_tests_cant": "unbounded histories", "anchors": ["havah/hvh/extension.go", "havah/hvh/base.go", "havah/hvh/hvhstate/state.go"]}
{"id": "C24", "title": "A planet is rewarded at most once per term", "statement": "Two successful work reports of one planet lie in different terms, the planet existed before the term began, and each report credits exactly the planet's share of the term's reward.", "quantifier": "every history of reports", "why_tests_cant": "unbounded histories", "anchors": ["havah/hvh/extension.go: ReportPlanetWork", "havah/hvh/hvhstate/planetreward.go: increase"]}
{"id": "C25", "title": "Term reward never overdrawn", "statement": "The sum of shares credited in a term never exceeds the reward issued for that term, so the remainder is never negative.", "quantifier": "every number of planets, reward and history of reports and registrations within a term", "why_tests_cant": "all histories in a term", "anchors": ["havah/hvh/hvhstate/state.go: OfferReward, DecreaseRewardRemain", "havah/hvh/extension.go: ReportPlanetWork"]}
{"id": "C26", "title": "Claimable reward is bounded and monotone", "statement": "A claim by the owner of a planet pays an amount between 0 and the planet's credited reward and never breaks the lock of private planets: after the claim the smaller of the credited reward and the locked part (1 - rate of the accumulated reward, rounded down) remains; claiming again pays nothing; a higher release rate never makes less claimable; the rate in force is always a proper fraction.", "quantifier": "every planet reward, release rate and history of claims", "why_tests_cant": "all integers, histories", "anchors": ["havah/hvh/hvhstate/state.go: calcClaimableReward, ClaimPlanetReward", "havah/hvh/hvhstate/planetreward.go"]}
{"id": "C27", "title": "Planet registry is consistent", "statement": "The reported planet count equals the number of registered planets and never exceeds the limit; registering an existing id and unregistering an absent id fail without changes.", "quantifier": "every history of registrations", "why_tests_cant": "unbounded histories", "anchors": ["havah/hvh/hvhstate/state.go: RegisterPlanet, UnregisterPlanet, SetPlanetOwner"]}
{"id": "C28", "title": "Issue schedule", "statement": "The issue amount decreases by the reduction rate exactly every reduction cycle, never increases, never becomes negative, and nothing is issued before the start height or after the last term.", "quantifier": "every height, configuration and history", "why_tests_cant": "all heights", "anchors": ["havah/hvh/hvhstate/state.go: GetIssueAmount, IsIssueStarted, GetTermSequenceAndBlockIndex", "havah/hvh/base.go: onTermStart, onTermEnd"]}
{"id": "C29", "title": "Hoover subsidy bounds", "statement": "The subsidy paid per report never exceeds the hoover guide, the hoover fund balance or the amount that brings the accumulated reward above the price of the planet; the fund is refilled to at most its budget and only from the sustainable fund.", "quantifier": "every price, reward, balance and height", "why_tests_cant": "all integers", "anchors": ["havah/hvh/extension.go: calcHooverGuide, calcSubsidyFromHooverFund", "havah/hvh/base.go: refillHooverFund"]}
{"id": "C30", "title": "Fees and company rewards are split exactly", "statement": "Transaction fees are split between ecosystem and sustainable funds and company planet rewards between the owner and the ecosystem with no coin created or lost, in the configured proportion rounded down.", "quantifier": "every amount", "why_tests_cant": "all integers", "anchors": ["havah/hvh/base.go: distributeFee", "havah/hvh/extension.go: distributeReward"]}
{"id": "C31", "title": "Planet managers form a set", "statement": "After any sequence of additions and removals the planet managers are exactly the addresses added and not removed since; duplicates are refused and removal order does not matter to membership.", "quantifier": "every sequence of additions and removals", "why_tests_cant": "unbounded histories", "anchors": ["havah/hvh/hvhstate/state.go: AddPlanetManager, RemovePlanetManager, IsPlanetManager"]}
{"id": "C32", "title": "Validator registry is consistent", "statement": "Each node address belongs to at most one validator ever registered and is never reassigned; an unregistered validator never comes back; between two governance actions an owner can re-enable its own validator at most three times; the main, sub and disqualified lists are disjoint, without repetition, and list exactly the registered validators by grade and status; only governance registers, only governance or the owner unregisters or enables.", "quantifier": "every history of validator operations", "why_tests_cant": "unbounded histories", "anchors": ["havah/hvh/hvhstate/state.go: RegisterValidator, UnregisterValidator, EnableValidator, SetNodePublicKey", "havah/hvh/hvhstate/validatorstatus.go"]}
{"id": "C33", "title": "Only absent non-main validators are penalised", "statement": "A block disables a validator exactly if the block checks votes, the validator was enabled, is not a main validator, and its consecutive misses (since its last vote, last successful enableValidator call, or registration) exceed the allowance in force at some vote of the block. (Consequence, also proved: an enabled owner calling enableValidator resets its counter for free.)", "quantifier": "every genesis, every history of transactions and votes", "why_tests_cant": "unbounded histories", "anchors": ["havah/hvh/hvhstate/state.go: OnBlockVote, RenewNetworkStatusOnTermStart", "havah/hvh/decentralization.go"]}
{"id": "C34", "title": "Active validator replacement is deterministic and sound", "statement": "Within a term a block removes a consensus validator only if it disabled that voter, and adds only nodes of enabled sub validators that have their keys and were not active; the set has no repetitions, never grows, and shrinks only if no eligible validator is left out. A term start takes the main validators first, then eligible sub validators, up to the configured count. The members of the set and everything else in the state do not depend on map iteration order; positions do not either if at most one validator is removed (they do depend on it otherwise, proved as a counterexample). Without manual grants every consensus validator is the current node of a validator that is not unregistered.", "quantifier": "every reachable state, block, key availability and iteration order", "why_tests_cant": "depends on map iteration order", "anchors": ["havah/hvh/decentralization.go: replacePenalizedActiveValidators", "havah/hvh/hvhstate/state.go: GetNextActiveValidatorsAndChangeIndex"]}
{"id": "C35", "title": "Proposers and validators agree on base transactions", "statement": "A node proposing a block includes a base transaction exactly when every other node requires it, and with the issue amount every node computes, provided the configured issue is positive.", "quantifier": "every state and height", "why_tests_cant": "all states", "anchors": ["havah/hvh/extension.go: NewBaseTransactionData", "havah/hvh/base.go", "havah/platform.go: OnValidateTransactions"]}
{"id": "C36", "title": "Access control", "statement": "Each state-changing system call fails without any change unless the caller is the one allowed: governance, the PlanetNFT contract, a planet manager; only the owner of a planet can reduce its credited reward by claiming.", "quantifier": "every caller, state and call", "why_tests_cant": "all callers", "anchors": ["havah/chainscore_havah.go"]}
{"id": "C37", "title": "Lost coins", "statement": "From revision 2 on the credited reward of an unregistered planet is accounted as lost (remainders of a term are carried over, not lost), nothing else changes the lost amount, and a withdrawal by governance moves exactly this amount out of the treasury to a non-contract address, once.", "quantifier": "every history", "why_tests_cant": "unbounded histories", "anchors": ["havah/hvh/hvhstate/state.go: AddLost, DeleteLost", "havah/hvh/extension.go: WithdrawLostTo"]}
{"id": "C38", "title": "Go integer codecs: bytes and text", "statement": "BigIntSetBytes inverts BigIntToBytes, agreeing with the Python executor; ParseBigInt inverts FormatBigInt, which writes the canonical form (0x, lower-case digits, no leading zeros, minus in front); a text without separators and plus sign is accepted exactly when it is decimal or 0x-hexadecimal with an optional minus, and read as what it denotes; 64-bit formatters agree, and fixed-size parsers read the same values, refusing what does not fit. Exceptions, also proved: a plus sign or a fixed-size field makes a leading zero mean octal.", "quantifier": "every integer and every text", "why_tests_cant": "infinite domain", "anchors": ["common/intconv/bytes.go", "common/intconv/string.go: ParseBigInt, FormatBigInt, FormatInt, FormatUint, ParseInt, ParseUint"]}
{"id": "C39", "title": "RLP codec: round trip, injectivity, wire format, streams", "statement": "A value of any type marshalled with the RLP codec is unmarshalled to the same value and consumes exactly its own bytes; the bytes are the recursive-length-prefix form; different values have encodings neither of which begins the other; truncated messages are refused; whatever bytes arrive, an accepted value belongs to the type; map entries are written in key order; added struct fields read as zero, removed ones are ignored; skip and raw reads pass over exactly one value. Exceptions, also proved: strings over 10^6 bytes on streams, non-canonical messages, nulls inside pointed-to structs.", "quantifier": "every type built from booleans, integers, strings, bytes, arrays, slices, maps, pointers and structs, every value, every byte string", "why_tests_cant": "unbounded trees", "anchors": ["common/codec/rlp.go: rlpReader, rlpWriter", "common/codec/codec.go: encodeValue, decodeValue", "common/codec/bytes.go: MarshalToBytes, UnmarshalFromBytes", "common/intconv/*.go"]}
{"id": "C40", "title": "World-state trie is a map with a canonical, binding root", "statement": "In any history of get, set, delete, flush, crash and re-opening, every call on the trie returns what a plain map returns (value, old value, never an error); the root hash depends on the content only, and equal root hashes mean equal content, up to a hash collision among the nodes; the trie is empty, and has no root hash, exactly when the map is empty. Exception, also proved: empty values.", "quantifier": "every history, every key and non-empty value, every database shared with other writers, every hash function with 32-byte results", "why_tests_cant": "unbounded histories", "anchors": ["common/trie/ompt/mpt.go: Get, Set, Delete, Hash, Flush, NewMPT", "common/trie/ompt/leaf.go, extension.go, branch.go, hash.go, node.go, rlp.go", "common/trie/ompt/mptforbytes.go"]}
{"id": "C41", "title": "Two-thirds majority", "statement": "However votes are added, repeated and replaced, a vote set reports a decision exactly when more than two thirds of the validators currently vote for it, a decision is never lost once reached, the votes handed out for it are exactly the votes for it, and two decisions (in one set or in two) mean more than a third of the validators voted for both. A commit vote list is accepted for a block exactly when its signers are distinct validators and more than two thirds of them; its time stamp lies between those of any majority of its signers.", "quantifier": "every number of validators, every order of votes, repetitions and replacements, every vote list", "why_tests_cant": "all orders", "anchors": ["consensus/voteset.go: add, getOverTwoThirdsRoundDecisionDigest, hasOverTwoThirds, voteSetForOverTwoThird, checkAndAdd", "consensus/commitvotelist.go: VerifyBlock, enoughVote, Timestamp"]}
{"id": "C42", "title": "Block-part sets", "statement": "Writing any bytes in any portions and asking for the part set gives parts of the fixed size (the last one possibly shorter) whose concatenation is what was written. Whoever knows the part set id, and is offered parts by anybody in any order, never panics, accepts only the block's own parts, accepts each of them when offered, knows when he has all, and then reads back the block's bytes with buffers of any sizes; equal ids mean equal blocks. All this unless two of the strings involved have the same hash. Exceptions, also proved: if the block's length is a multiple of the part size the id has no hash and no part is ever accepted; an id of a dishonest proposer can make AddPart panic; the maker's own mask lacks the last 64 parts when the number of parts is a multiple of 64.", "quantifier": "every byte string, part size, sequence of writes, sequence of parts offered (including forged ones), sequence of reads; every hash function with 32-byte results", "why_tests_cant": "all arrival orders and all forged parts", "anchors": ["consensus/partset.go: Write, PartSet, AddPart, NewPartSetFromID, Read, ID, WithAppData", "common/trie/ompt: prove, GetProof"]}
{"id": "C43", "title": "Bit array operations", "statement": "Set, Unset, Put, Get, AssignAnd, Copy and Equal act on exactly the addressed bits and never panic on arrays made by the API, and PickRandom returns a set bit, every one for some random number. Exceptions, also proved: Flip of an array whose size is a multiple of 64 clears its last 64 bits, and an array from a peer that passes Verify may make Copy panic.", "quantifier": "every size, index and sequence of operations", "why_tests_cant": "all sizes", "anchors": ["consensus/bitarray.go"]}
{"id": "C44", "title": "Merkle accumulator", "statement": "After any history of additions, witness requests, flushes, crashes and recoveries: adding an item returns a witness that verifies; WitnessFor(i) returns a witness that verifies for the i-th item, exactly when no root above its tree is missing (otherwise it panics); whatever Verify accepts is the hash of the item at the index its directions say, unless named strings collide; a witness can be sent as hashes and an index; recovery gives exactly the items of the last flush. Flush panics exactly when a binary digit of the number of items is 0.", "quantifier": "every history, length, index, list of witnesses (also forged ones); every hash function with 32-byte results", "why_tests_cant": "unbounded lengths", "anchors": ["common/trie/mta/accumulator.go: AddData, AddHash, WitnessFor, Verify, Flush, Recover, WitnessesToHashes, HashesToWitness"]}
{"id": "C45", "title": "Step deposits", "statement": "Adding a deposit, withdrawing from it and paying steps out of it conserve coins: what is deposited is later either used for steps at the step price, or handed back, or charged as withdrawal fee, never twice and never more than there is. No field becomes negative, there is at most one deposit per id, payment uses the deposits in order and pays all that is asked or else all there is, and the list written to the store and read back is the same.", "quantifier": "every history of add, withdraw and pay with any amounts, heights, prices, terms and rates", "why_tests_cant": "unbounded histories", "anchors": ["service/state/deposit.go: AddDeposit, WithdrawDeposit, PaySteps, CanPay", "service/state/depositlist.go"]}
{"id": "C46", "title": "Unpacking of contract packages", "statement": "Unpacking a Python contract writes exactly the files in the directory of the first package.json (other than those in __MACOSX and __pycache__ directories), each at its place below the target directory, at most 1 MiB each and 2 MiB in all. Exceptions, also proved: names with .. components are written elsewhere, and entries declaring a negative size defeat the total limit.", "quantifier": "every archive and every file system", "why_tests_cant": "all archives, adversarial names and sizes", "anchors": ["service/contract/contractmanager.go: storePython"]}
{"id": "C47", "title": "Flushing the trie is crash-safe", "statement": "After a flush the trie opened with its root hash holds the same map, whatever is added to the database later; a flush interrupted at any point leaves every earlier root readable and no dangling reference below anything it has written; every entry is stored under its own hash.", "quantifier": "every history, every number of writes done before the crash", "why_tests_cant": "every crash point of every flush", "anchors": ["common/trie/ompt/mpt.go: Flush, realize", "common/trie/ompt/node.go: flushBaseInLock", "common/trie/ompt/branch.go, extension.go, leaf.go: flush"]}
{"id": "C48", "title": "Merkle proofs are complete and sound", "statement": "For every key with a value the trie yields a proof which a holder of only the root hash accepts and which gives the value; no list of byte strings makes such a holder accept a value the trie does not have, unless an item of it collides with a node of the trie.", "quantifier": "every trie content, key, value and every list of byte strings offered as a proof", "why_tests_cant": "adversarial proofs are unbounded", "anchors": ["common/trie/ompt/mpt.go: GetProof, Prove", "common/trie/ompt/*.go: getProof, prove"]}
{"id": "C49", "title": "Iteration delivers exactly the matching keys in order", "statement": "Iterating over a prefix delivers exactly the pairs of the map whose key begins with it, each once, in increasing key order; iterating over the trie delivers all pairs.", "quantifier": "every history and prefix", "why_tests_cant": "every content and prefix, including prefixes ending inside a node", "anchors": ["common/trie/ompt/mpt.go: Filter, Iterator, iterator.Next", "common/trie/ompt/*.go: traverse"]}
{"id": "C51", "title": "Fee sharing", "statement": "When contracts called by a transaction ask to pay part of its fee, each pays the proportion it asked for (1 to 100 percent, the last valid request of its call) of the steps of its own call less what its callees really paid, rounded down and only as far as its deposits reach; calls that failed do not pay, except the outermost one. Together they never pay more steps than were used, only their deposits change, by exactly price times the steps. The receipt lists each payer once in the order of addresses, the listed steps add up to the steps used, and the receipt does not depend on the order in which Go visits its map.", "quantifier": "every tree of nested calls, requests, results, step counts, deposits and prices", "why_tests_cant": "all call trees and all map orders", "anchors": ["service/contract/feepayerinfo.go", "service/contract/callcontext.go: PushFrame, PopFrame, SetFeeProportion", "service/txresult/receipt.go: AddPayment, Fee, FeeByEOA", "service/txresult/feedetail.go"]}
{"id": "C52", "title": "Fees neither create nor lose coins", "statement": "Executing any transactions and paying the gathered fees to the treasury keeps the total of balances and deposits, and no balance becomes negative, whatever the calls do and whoever can or cannot pay. Charging always ends with one result: the sender pays; or everything is undone and it pays the whole fee for a failure; or everything is undone and the price is 0. A sender that passed the balance check is charged in the first way. Holds under every Havah revision.", "quantifier": "every sequence of transactions, call trees, balances, deposits, prices, revisions below 256", "why_tests_cant": "conservation over all histories and all ways of failing", "anchors": ["service/transaction/transactionhandler.go: Execute, checkBalance", "service/contract/transferhandler.go", "service/contract/deposithandler.go", "service/transition.go: executeTxs", "havah/hvhmodule/revision.go: ValueToRevision"]}
{"id": "C53", "title": "A validator never signs two votes for one position", "statement": "Whatever messages arrive, and wherever the process crashes and is restarted from its logs, a validator never sends two different votes of the same type for the same height and round; every vote it sent is already synced to its round log, and after any restart its position is at or after every vote it sent.", "quantifier": "every execution: message order, timers, crash points between any two durable effects, lost unsynced log suffixes, any set of faulty validators", "why_tests_cant": "Depends on all interleavings of handlers, log writes, syncs and crashes.", "anchors": ["consensus/consensus.go: ReceiveVoteMessage, ReceiveProposalMessage, ReceiveBlockPartMessage, handlePrevoteMessage, handlePrecommitMessage, enterPropose, enterPrevote, enterPrevoteWait, enterPrecommit, enterPrecommitWait, enterCommit, enterNewRound, commitAndEnterNewHeight, doSendVote, processBlock", "consensus/consensus.go: applyRoundWAL, applyLockWAL, applyCommitWAL, Start", "consensus/voteset.go", "consensus/blockpartset.go"]}
{"id": "C54", "title": "Agreement: no two correct nodes finalize different blocks at a height", "statement": "With fewer than one third of the validators faulty, no two correct nodes finalize different blocks at one height, in whatever rounds they decide; two certificates of more than two thirds precommits are for the same block; a finalized block has such a certificate; a validator that precommitted a block prevotes only that block in later rounds unless more than two thirds prevoted something else meanwhile, and precommits only what more than two thirds prevoted. Restarts are allowed if the lock log of the restarting node holds the round of its lock.", "quantifier": "every number of validators and rounds, every asynchronous schedule, every behaviour of the faulty validators, every crash and restart satisfying the condition", "why_tests_cant": "Safety of a Byzantine agreement protocol over all schedules and adversaries.", "anchors": ["consensus/consensus.go: ReceiveVoteMessage, ReceiveProposalMessage, ReceiveBlockPartMessage, handlePrevoteMessage, handlePrecommitMessage, enterPropose, enterPrevote, enterPrevoteWait, enterPrecommit, enterPrecommitWait, enterCommit, enterNewRound, commitAndEnterNewHeight, doSendVote, processBlock", "consensus/consensus.go: applyRoundWAL, applyLockWAL, applyCommitWAL, Start", "consensus/voteset.go", "consensus/blockpartset.go"]}
{"id": "C55", "title": "A restart can break agreement (finding)", "statement": "There is an execution with 4 validators, one of them faulty, and a single restart of a correct one in which two correct nodes finalize different blocks at the same height: when the lock round is raised for the block already locked nothing is written to the lock log, so that after the restart an older set of prevotes releases the lock.", "quantifier": "existence of an execution", "why_tests_cant": "The failing schedule needs a particular interleaving of several rounds, a Byzantine validator and a crash.", "anchors": ["consensus/consensus.go:851-854 (enterPrecommit, update lock round), handlePrevoteMessage, applyLockWAL"]}
{"id": "C56", "title": "Validity: a finalized block was checked by a correct validator", "statement": "With fewer than one third of the validators faulty, every block a correct node finalizes, and every block a correct validator votes for, was imported without error or built by some correct validator; for any crashes and restarts.", "quantifier": "every execution as in C53 with fewer than one third faulty", "why_tests_cant": "Votes for a block may follow a lock read from the log or a set of other votes; the claim ranges over all histories.", "anchors": ["consensus/consensus.go: ReceiveVoteMessage, ReceiveProposalMessage, ReceiveBlockPartMessage, handlePrevoteMessage, handlePrecommitMessage, enterPropose, enterPrevote, enterPrevoteWait, enterPrecommit, enterPrecommitWait, enterCommit, enterNewRound, commitAndEnterNewHeight, doSendVote, processBlock", "consensus/consensus.go: applyRoundWAL, applyLockWAL, applyCommitWAL, Start", "consensus/voteset.go", "consensus/blockpartset.go"]}
{"id": "C57", "title": "No transaction is executed twice", "statement": "Over every history of block checks, commits, background writes of locators, crashes and restarts, no transaction id occurs twice on the chain, as long as block time stamps and both ends of the accepted time range never go back. A block passing the check has only new, distinct, timely transactions; a block with such transactions is never refused; every transaction on the chain is found at its block and index, before and after restarts.", "quantifier": "every history, every chain, every interleaving of the flush worker with checks and commits, every crash point", "why_tests_cant": "Depends on all interleavings of the worker, cache expiry and crashes.", "anchors": ["common/txlocator/manager.go", "service/txidmanager.go", "service/tschecker.go: CheckTxTimestamp", "service/transition.go: ensureRecordTXIDs, doExecute, finalizeNormalTransaction", "block/manager.go: NewManager, finalize"]}
{"id": "C58", "title": "Replay when the threshold is lowered or a write fails (findings)", "statement": "There are executions in which all blocks pass the check and one transaction is on the chain twice: after the time stamp threshold was lowered and the node restarted; and after the write of a locator failed while a commit was waiting. A transaction at the very end of the range of a block is not found by blocks on top of it while the first is not committed; all other transactions of uncommitted ancestors are found.", "quantifier": "existence of executions; for the last part, every reachable state and every path of uncommitted blocks", "why_tests_cant": "Needs a particular order of governance change, restart, cache expiry and resubmission.", "anchors": ["common/txlocator/manager.go", "service/txidmanager.go", "service/tschecker.go: CheckTxTimestamp", "service/transition.go: ensureRecordTXIDs, doExecute, finalizeNormalTransaction", "block/manager.go: NewManager, finalize"]}
{"id": "C59", "title": "Synced records of the write-ahead log survive every crash", "statement": "Whatever has been written, synced, rotated and removed, and wherever a crash cuts the last file, the next start reads the written records in order and without a gap, from the first one that is not in a removed file up to some point after the last synced one, and nothing else. What was synced once is read after every later crash. After an orderly close every record is read.", "quantifier": "all histories of writes, partial flushes, syncs, rotations, removals, crashes and starts; every crash point; every checksum function", "why_tests_cant": "The crash point is any byte of the log, and the guarantee spans any number of crashes.", "anchors": ["consensus/wal.go: walWriter, walReader, readWALInfo, CloseAndRepair", "consensus/consensus.go: applyRoundWAL, applyLockWAL, applyCommitWAL, applyWAL"]}
{"id": "C60", "title": "Housekeeping of the write-ahead log, and crash points the repair cannot handle (findings)", "statement": "The housekeeper never panics and never removes a record that is not synced, and removes records only if there are more bytes in the log than the limit. The repair goes wrong in two places: if the first record of a new file is torn, the file before it, with synced records, is removed and the torn one kept, and the next start reads nothing; if exactly the header of a record is left, it is taken for the end of the log and records written and synced later are never read. A file tail filled with zeros is read as an empty record, with which the engine does not start.", "quantifier": "all histories and all crash points; for the second defect, existence of an execution", "why_tests_cant": "The defects need a crash at a particular byte of a particular file.", "anchors": ["consensus/wal.go: walWriter, walReader, readWALInfo, CloseAndRepair", "consensus/consensus.go: applyRoundWAL, applyLockWAL, applyCommitWAL, applyWAL"]}
{"id": "C61", "title": "Concurrent execution of a block gives the result of sequential execution, without deadlock", "statement": "However the goroutines are scheduled and however often transactions are retried, a transaction that has been committed has the receipt it would have if the transactions were executed one after the other in the order of the block, and when all are done the world is the one this would give. The first transaction that is not committed is never blocked, so that an execution can always be completed.", "quantifier": "all lists of transactions with any locks, all programs that keep to their locks, all schedules, all retries", "why_tests_cant": "Races show only in particular schedules; the number of schedules is exponential in the accesses.", "anchors": ["service/state/worldvirtualstate.go: GetFuture, applyLockRequests, GetAccountState, GetSnapshot, Reset, Commit, Realize", "service/transition_pe.go: executeTxsConcurrent, Report"]}
{"id": "C62", "title": "Concurrent execution never returns an error (finding)", "statement": "Whatever errors the transactions report and whenever they are reported, the concurrent executor returns no error; a transaction that fails after its retries is left without a receipt. The sequential executor returns an error exactly if a transaction fails.", "quantifier": "all lists of transactions, all outcomes of all attempts, all times of the reports", "why_tests_cant": "A test that sees no error cannot tell that none can ever be seen.", "anchors": ["service/state/worldvirtualstate.go: GetFuture, applyLockRequests, GetAccountState, GetSnapshot, Reset, Commit, Realize", "service/transition_pe.go: executeTxsConcurrent, Report"]}
{"id": "C63", "title": "The text that is hashed and signed determines the transaction up to the normal form of its data", "statement": "Two version 3 transactions have the same text to be hashed exactly if sender, receiver, value, step limit, nonce, network, timestamp, version and data type are the same and the data is the same up to: numbers count as the strings of their integer parts, empty strings at the start of a list do not count, empty data counts as an empty string. For transactions in JSON form the same holds for all their fields except signature and txHash. So a field or a boundary between fields can never be moved without the signature becoming invalid, but a third party can change signed arguments within these limits.", "quantifier": "all pairs of transactions, all JSON values of any depth", "why_tests_cant": "Injectivity is over all pairs of values; strings may contain the delimiters and the data type is written without escapes.", "anchors": ["service/transaction/serialize.go: serializeValue, serializeList, serializeDict, serializeString", "service/transaction/transaction_v3.go: transactionV3Data.calcHash", "service/transaction/transaction_json.go: calcHashOfTransactionJSMap"]}
{"id": "C64", "title": "A validated block can pay for its transactions, and can be executed exactly if all data types are known (finding)", "statement": "If the transactions of a block pass validation, each sender has, at the place of his transaction and after all before it took their full step limit and value, the step limit times the price and the value; no sender is blocked. A transaction that passes verification has a handler exactly if its dataType is absent or call, message, deploy, deposit or patch. A block that passes validation and has a transaction of another type can never be executed.", "quantifier": "all lists of transactions, all worlds, all ways transactions execute", "why_tests_cant": "Ranges over all blocks and all unknown strings.", "anchors": ["service/transaction/transaction_v3.go: Verify, PreValidate, GetHandler", "service/transaction/transactionhandler.go: NewHandler", "service/transition.go: validateTxs", "service/transition_se.go: executeTxsSequential"]}
{"id": "C65", "title": "Calls between contracts are nested transactions", "statement": "Whatever contracts do and however deep they call each other, through execution environments or not: a call that does not succeed leaves the world as it was and none of its events and BTP messages, nor those of the calls it made, remain; a call that succeeds adds its changes, and its events in order, to those of its caller; a call in read-only mode (or that enters it) changes and emits nothing; a timeout or a system failure undoes everything of the innermost pending Call at once; no call uses more steps than its limit; Call always returns.", "quantifier": "all programs of contracts, all depths of calls, all mixtures of synchronous and asynchronous handlers, timeouts at any point", "why_tests_cant": "The message loop keeps the frames of many calls on one stack; that it agrees with nested calls is a statement about all call trees.", "anchors": ["service/contract/callcontext.go: Call, runFrame, waitResult, handleResult, pushFrame, popFrame, cleanUpFrames", "service/contract/callframe.go: NewFrame, deductSteps, addLog, enterReadOnlyMode, applyFrameLogsOf"]}
{"id": "C66", "title": "The time of a block cannot be set by a minority", "statement": "If less than a third of the validators are faulty, the time of a block whose votes are verified is between the earliest and the latest time in a vote of a correct validator, whatever times the faulty ones sign; a block made from such votes is accepted; times of accepted blocks strictly increase and do not depend on the order of votes; a transaction fits in a block exactly if its time is within the threshold of the time of the block.", "quantifier": "all numbers of validators, all sets of votes, all times of faulty validators including those whose sum overflows", "why_tests_cant": "It ranges over all choices of faulty validators and their times, and over all sizes of validator sets.", "anchors": ["consensus/commitvotelist.go: Timestamp, VerifyBlock, enoughVote", "block/blockv2.go: VerifyTimestamp", "consensus/consensus.go: voteTimestamp", "service/tschecker.go: CheckTxTimestamp, NewTxTimestampRangeFor"]}
{"id": "C67", "title": "The transaction pool", "statement": "For every history of additions, removals, expiries, choices, delayed drops and requests of peers, the linked lists and maps of the pool act as one list: no transaction twice, never more than the size, the transactions of a sender in the order of their times, no panic; what is chosen for a block is in this order, within the limits, of the time of the block, in no finalized block, and can be paid in order, and without need nothing is left out; a transaction is dropped only if expired, already in a block or refused; what is sent to a peer are the first transactions that its filter lacks. Findings: a transaction larger than a block stops all behind it; the filter of a pool can lack transactions of the pool.", "quantifier": "all histories of operations, all ids, senders, times and sizes, all filters of peers", "why_tests_cant": "Pointer structures go wrong only in particular orders of insertions and removals; there are unboundedly many.", "anchors": ["service/transactionlist.go: Add, Remove, RemoveTx, Next, updateBloom, txBloomElement.Add, GetBloom", "service/transactionpool.go: Add, Candidate, RemoveList, DropOldTXs, dropTransactions, FilterTransactions", "service/txshare.go: TxBloom"]}
{"id": "C68", "title": "Who waits for the result of a transaction is answered", "statement": "In every interleaving of senders, waiters, the pool and the finalization of blocks: if a waiter has not been answered, its transaction is in the pool, or its drop is about to be told, or it is in a block whose result is about to be finalized; a waiter gets at most one answer, about its transaction; after the finalization of a result (or a drop) no waiter of its transactions is left; a transaction is called unknown only if it never was in the pool or was dropped. Finding: a waiter can be told of a drop although the transaction, added again, is in the pool.", "quantifier": "all interleavings of any number of threads, all transactions and blocks", "why_tests_cant": "The pool and the manager have different mutexes; races show only in rare interleavings.", "anchors": ["service/transactionmanager.go: AddAndWait, WaitResult, Add, NotifyFinalized, OnTxDrops, addWaiterInLock, removeWaitersInLock", "service/manager.go: Finalize", "service/transactionpool.go: dropTransactions, DropOldTXs, RemoveList"]}
{"id": "C69", "title": "A synchronized state is complete and is the one of the root hash", "statement": "Whatever data peers send, in whatever order: data is stored only under its own hash and only if it was requested, nothing stored is lost, and when no request is left everything reachable from the requested roots is in the database with the right hashes, provided that nothing was missing below what the database had before; every answer to an open request is accepted and the number of answers needed is bounded. For a trie: every key then reads the value it has in the trie of that root hash. With the buffer, the database is unchanged until Flush(true). Finding: the builder trusts a root it finds, so after a crash without buffer, or in the middle of Flush (which writes parents first), the synchronization reports success with nodes missing.", "quantifier": "all sequences of requests and of data from peers, all tries, all databases, crash points", "why_tests_cant": "Peers choose data and order; a missing node shows only when it is read.", "anchors": ["common/merkle/builder.go: OnData, RequestData, UnresolvedCount, Flush, NewBuilder", "common/db/layer_db.go", "common/trie/ompt/mpt.go: resolve, nodeRequester", "service/sync2/syncprocessor.go: HandleData, DoSync", "service/sync2/syncer.go", "block/unsafefinalize.go", "btp/digestfrombytes.go"]}
{"id": "C70", "title": "The world state with its caches is a plain map of accounts", "statement": "Whatever is done with a world state and the account states obtained from it (all setters, contract operations, snapshots and resets of single accounts, snapshots, resets and cache clearing of the world, with account states used after the cache was cleared), every read gives what a plain map from ids to accounts would give; a world snapshot is the map at the time it was made, except that empty accounts are not in it, and later changes do not alter it; a world reset to a snapshot reads as it did then. Findings: a reset forgets version and the like of accounts that count as empty, and contracts that differ only in parameters, type or engine are called equal, which is harmless only as deployment ids are not reused.", "quantifier": "all histories of operations on any number of accounts, all iteration orders of maps, all initial tries", "why_tests_cant": "Snapshots are skipped by dirty marks and pointer comparison (last, lastAccounts); a missed mark shows only in some history.", "anchors": ["service/state/worldstate.go: GetAccountState, GetSnapshot, Reset, ClearCache, GetAccountSnapshot", "service/state/account.go: accountStateImpl, accountSnapshotImpl.Equal", "service/state/contract.go: Equal, SetCode"]}
{"id": "C71", "title": "Contracts change only by deployment, by their owner, after acceptance", "statement": "Whatever calls are made, nested in any way and failing anywhere, what is active at an address is what its owner at that time deployed there last before the acceptance, accepted once and not rejected, without an audit only where none is needed; a contract account stays one; only the owner can give it away or deploy; the engine may change the code of what it installs only while it does so; Python may be replaced by Python or Java, Java by Java, and native contracts by nothing; while a contract is installed, what it replaces is not callable and nothing it calls can replace, accept or reject it; the table of pending ids lists just the pending contracts; deployments in one transaction get different ids, and different (sender, timestamp, nonce, salt) give different preimages of addresses. Findings: nonces -1 and 255 give the same address, and a rejected id that is used again leaves a pending contract that cannot be accepted.", "quantifier": "all histories of deployments, acceptances, rejections, transfers and calls, nested in any way with any failures", "why_tests_cant": "Re-entrancy, rollback and pending and active contracts side by side give histories no test enumerates.", "anchors": ["service/contract/deployhandler.go: DeployHandler.DoExecuteSync, AcceptHandler.ExecuteSync, genContractAddr, getIDWithSalt", "service/state/account.go: DeployContract, ActivateNextContract, AcceptContract, RejectContract", "service/state/eetype.go: AbleToUpdate, NeedAudit", "service/contract/contractmanager.go: DeployAndInstallSystemSCORE", "havah/hvh/context.go: SetScoreOwner"]}
{"id": "C72", "title": "Merkle roots, proofs and signatures of BTP blocks", "statement": "The Merkle root that is computed in place is the root of the tree with full left subtrees; the proof of each leaf leads to the root along the path its index and the number of leaves tell; a proof along that path that leads to the root is for the leaf at that index, and root and count determine the leaves, unless two strings with the same hash are found; signatures of a section are accepted iff more than two thirds of the validators signed it. Finding: without the count a concatenation of two hashes of messages can be proved to be a message.", "quantifier": "all lists of leaves, all indices, all proofs, all lists of signatures, all hash functions", "why_tests_cant": "The buffer is overwritten while it is read; correctness for every number of leaves and every forged proof cannot be sampled.", "anchors": ["btp/ntm/module.go: MerkleRoot, MerkleProof", "btp/ntm/secp256k1proof.go: secp256k1ProofContext.Verify, VerifyPart"]}
{"id": "C73", "title": "BTP networks: messages, sections and proof contexts", "statement": "The sections of a BTP network contain the messages sent to it by calls that succeeded, in order and once each, with the numbers reported; sections are linked by hashes and message numbers. A client that follows the sections of an open network and takes the proof context when told has the proof context the chain uses. The map of proof contexts a node keeps from block to block is the one derived from the state, and it is that of the keys of the current validators. Building sections never fails, and the result does not depend on the order of maps. The key check says whether an address has keys for all algorithms in use. Finding: a network type that is made during a block while other validators are set keeps their proof context if the block ends with the validators of its beginning.", "quantifier": "all histories of blocks, all nested calls that succeed or fail, all orders of maps, all changes of validators and keys, all key and hash functions", "why_tests_cant": "Marks set by calls are combined at the end of the block; opening, closing, reopening, key and validator changes can be interleaved in any way, and Go maps are walked in any order.", "anchors": ["service/state/btp.go: BTPStateImpl.OpenNetwork, CloseNetwork, HandleMessage, SetPublicKey, CheckPublicKey, BuildAndApplySection", "btp/builder.go: sectionBuilder.Build", "btp/sectionbybuilder.go: newNetworkSection, newNetworkTypeSection", "btp/proofcontextmap.go: proofContextMap.Update, NewProofContextMap", "havah/chainscore_btp.go"]}
{"id": "C74", "title": "Dropped transactions stay out, and the memory for them is bounded", "statement": "A transaction that the pool dropped is refused when it is offered again, until it is too old to be accepted anyway (if the drops of its second fit in a slot and the window of timestamps did not move backwards); only dropped transactions are refused for this reason. The cache reports exactly what the history of calls leaves, its length is the number of ids it holds, and both slots and ids are bounded by the time window. A transaction passes the check exactly if its timestamp is in the window, it is not remembered as dropped and the chain has no record of it. The ids of a block are committed once, however often Commit is called.", "quantifier": "all histories of adds, expiries, commits and threshold changes, in any order and with any timestamps", "why_tests_cant": "A linked list and a map of slots are kept consistent over every order of insertions in the middle, flushes and removals; the guarantee combines the expiry of the cache with the window of the check over whole histories.", "anchors": ["service/txidcache.go: txIDCache.Contains, Add, Len, RemoveOldTXsByTS, newSlot, flushSlotIfFull", "service/txidmanager.go: txIDManager.CheckTXForAdd, AddDroppedTX, onCommit, txIDLogger.Commit", "service/tschecker.go: CheckTxTimestamp, TxTimestampChecker"]}
{"id": "C75", "title": "Compression gives the data back, and decompression is safe on any data", "statement": "Decompress(Compress(bs)) is bs for every byte string, with the end mark found, also if the writer is fed in pieces; different data have different compressed forms. Decompressing any data, such as a bloom filter sent by a peer, does not panic, index out of its arrays or run forever, and its output is at most 3841 bytes for every 9 bits of input.", "quantifier": "all byte strings of any length, all ways to cut them, all data to decompress", "why_tests_cant": "Writer and reader must change widths, fill tables and clear them at the same codes, with the reader always one entry behind; the hash table must not lose entries by collisions. Round trips of samples do not cover the table fills and special cases.", "anchors": ["common/compress.go: Compress, Decompress", "common/lzw/writer.go: Writer.Write, incHi, writeMSB, Close", "common/lzw/reader.go: Reader.decode, readMSB", "service/txresult/logsbloom.go: LogsBloom.CompressedBytes, SetCompressedBytes", "service/txshare.go"]}
{"id": "C76", "title": "Validator snapshots never change and validator states are independent", "statement": "Every answer of ValidatorState and ValidatorSnapshot is the one plain lists would give: a snapshot keeps its length, elements, positions, bytes and hash whatever is done later with the state it came from, with states made from it or with other snapshots; a state changes only by its own methods; no list ever has two validators with one address, and IndexOf is the position in the list, -1 for an address not in it; Set refuses duplicates; GetSnapshot has the list the state has; a flushed snapshot can be read back under its hash.", "quantifier": "all histories of calls on any number of states and snapshots, any spare capacity the runtime gives to arrays, any stored lists", "why_tests_cant": "The objects share memory: slices are appended and shifted in place and the index is made late. Whether a write reaches a list someone else still holds depends on the whole history of snapshots, resets and changes and on spare capacities.", "anchors": ["service/state/validatorlist.go: validatorState, validatorSnapshot, validatorList, ValidatorSnapshotFromSlice, ValidatorSnapshotFromHash, ValidatorStateFromSnapshot", "service/state/validator.go: validator"]}
{"id": "C77", "title": "The block manager keeps exactly the blocks that are in use", "statement": "Import and Propose refuse a parent exactly if it is neither the last finalized block nor a block above it that is, or is below, a block for which the user has an undisposed candidate; Finalize accepts exactly such a block that is on top of the last finalized one, so finalized blocks form a chain; execution results are held for exactly these blocks, once each, so nothing leaks when candidates are disposed and nothing goes away while it is in use; each task calls back at most once and never after Cancel returned true, and Cancel returns true exactly for a task that is still open; a finished task holds no execution; the candidate is for the block asked for; the process cannot crash while the parents of open tasks are in use.", "quantifier": "all histories of Import, Propose, Cancel, Dup, Dispose, Finalize, Term and of executor reports in any order with any result, any tree of blocks", "why_tests_cant": "Reference counts in a tree with cascading removal and pruning go wrong only in particular interleavings of disposals, finalizations and late reports over trees of unbounded size.", "anchors": ["block/manager.go: bnode, addNode, unrefNode, removeNode, removeNodeExcept, importTask, proposeTask, Finalize, Term, DupBlockCandidate, DisposeBlockCandidate", "block/blockcandidate.go: blockCandidate", "block/transition.go: transition"]}
{"id": "C78", "title": "Shared executions report to every holder and stop when nobody holds them", "statement": "Requests for an execution of equal transitions on the same parent share one execution (a sync execution has priority), other requests start exactly one; every live handle with a callback is told the result of the validation and then of the execution, once each and in order, no matter how late it was made, and a disposed handle is never told anything again; the executor is told to stop exactly when the last handle is disposed before the end, once, and reports nothing after that; while the chain runs, the executor of an execution that somebody waits for is at work or its report is on the way; an execution is kept as long as somebody holds it and knows its parent as long as somebody holds that; patch and sync dereference nil exactly if nobody holds the parent.", "quantifier": "all histories of transit, propose, patch, sync, newTransition, dispose and of executor reports, with delays, over any number of executions and handles", "why_tests_cant": "A lost or doubled report, or a stop of an execution that is in use, needs a particular interleaving of joins, disposals and reports.", "anchors": ["block/transition.go: transitionImpl, transition, newInitialTransition", "service/transition.go: startExecution, reportValidation, reportExecution, cancelExecution"]}
{"id": "C79", "title": "A database layer holds writes until it is flushed", "statement": "Through any handle of a database layer a read gives the last value written (or deleted) through any handle of the same bucket since the last discard, or what the database below has; nothing written reaches the database below before Flush(true), which, if it succeeds, leaves there exactly what readers saw and lets later writes through; if it fails after any number of writes, each key below has its old value or the one readers see, readers see no change, and a later Flush(true) completes the work; Flush(false) makes readers see the database below again and leaves that unchanged.", "quantifier": "all histories of GetBucket, Get, Has, Set, Delete and Flush over any buckets, keys and values, with writes of others to the database below, and every point at which a write fails", "why_tests_cant": "The map and the linked list of each bucket must agree after every history of rewrites, deletions, discards and failed flushes.", "anchors": ["common/db/layer_db.go: layerBucket, layerDB, NewLayerDB", "common/merkle/builder.go: NewBuilder, Flush", "chain/taskreplay.go: doReplay"]}
{"id": "C80", "title": "The network queues lose nothing, keep the order and serve everybody", "statement": "Push refuses a context exactly if the queue for it does not exist or is full; what was accepted is given out by Pop exactly once and in order for each index; Pop gives nil exactly if all is empty; the queue with priorities always gives the oldest of the lowest index; in the queue with weights an index with something waiting is served after at most as many other Pops as the weights of the other indexes together, and a full turn gives as many in a row as its weight; nothing panics; and whenever something is in the queue, a value waits in the channel or a consumer that received one has still to call Pop, so that no context is left behind with all consumers asleep.", "quantifier": "all histories of Push, Pop, receives from the channel of Wait and SetWeight, by any number of producers and consumers, for all sizes, numbers of queues and weights", "why_tests_cant": "A lost wake-up or an error of the ring buffer shows only in particular interleavings and fill levels; starvation only in long histories.", "anchors": ["network/queue.go: sliceQueue, singleQueue, multiQueue, PriorityQueue, WeightQueue", "network/peer.go: sendRoutine", "network/p2p.go: sendRoutine, alternateSendRoutine", "network/protocolhandler.go: receiveRoutine, eventRoutine"]}
{"id": "C81", "title": "Fast sync hands over blocks in order, once, and reports the end once", "statement": "The blocks of a request are handed over one at a time, the next one only after the one before was consumed; the consumed heights are begin, begin+1, ... without a gap or a repetition, and none is above the end; nothing panics; OnEnd comes at most once for a request, after it (and after a cancel) no callback of that request comes; OnEnd without an error only after a Consume, when the whole range was consumed or no peer is left; OnEnd with an error only when the last peer failed or was rejected; while a block is awaited and there are peers, some peer is being asked for one, unless Reject dropped a height that the rejected peer was fetching: such a height is never asked for again, and the request never gets beyond it.", "quantifier": "all histories of requests, messages of any content and in any order, timeouts, results of sends, peers that join and leave, Consume, Reject and cancel", "why_tests_cant": "Peers answer in any order, badly or never, and come and go; a height that is lost or handed over twice shows only in particular interleavings.", "anchors": ["consensus/fastsync/client.go: client, fetchRequest, fetcher, blockResult.Consume, blockResult.Reject", "consensus/fastsync/heightset.go: heightSet"]}
{"id": "C82", "title": "Streams deliver in order, and keep what was not acknowledged", "statement": "What a stream delivers to the user of the other side is in the order in which it was sent, each message at most once, with the content that was sent, although the connection loses messages and sequence numbers wrap at 65536: the message delivered at a place of the sequence is the one that was sent at that place. Nothing is left out as long as no acknowledgement was taken in the place of a message; this is so if the other side sends nothing. A message is kept and a timer is set until the other side has taken one at its place; if sending works, send refuses a message exactly when 65535 are waiting; from every state with a message that is waiting the waiting ones can get fewer without a new message. An acknowledgement can be taken in the place of a lost message, which is then never delivered.", "quantifier": "all histories of sends by both sides, arrivals, losses of any messages, timers firing at any time and failures of posts", "why_tests_cant": "The sequence numbers wrap after 65536 messages, and which messages get lost and when the timers fire against arrivals is any combination.", "anchors": ["network/stream.go: stream, streamReactor, streamMessage"]}
{"id": "C83", "title": "Only who signed twice for one place is reported and punished", "statement": "What a node reports as a double sign are two messages that came to it, of one signer, of one kind and type, for one height and round, with different contents; a report is executed only if this is so, the signer is in the list of validators whose hash was in force two blocks below that height, and the height is not above the block; so who signs one thing for each place, whatever the network, is never reported or punished. The log of a node never panics and holds no more than its size; while what came fits in it, every double sign is found. The history on the chain is the last twenty changes of the validators, and from its first height on it gives what was in force; a push at a next height never fails. (Votes of different networks do conflict, and a report can be executed again.)", "quantifier": "all sequences of messages, all random evictions, all histories of validators and all reports", "why_tests_cant": "A wrong report punishes an honest validator; which messages meet in the log depends on eviction, and which list counts on the whole history of changes.", "anchors": ["consensus/doublesigndata.go: dsVote.IsConflictWith, dsProposal.IsConflictWith, matchNID", "consensus/dsmlog.go: dsmLog", "common/cache/costerrandom.go: CosterRandom", "service/contract/dscontext.go: DSContextHistory", "service/contract/dsrhandler.go: DSRHandler.DoExecuteSync", "service/state/dsrcontext.go: dsValidators"]}
{"id": "C84", "title": "A double sign report is proposed until it is in the branch, and not again", "statement": "What a block proposes are exactly the reports that were added, were not committed, are not in any block below it, are not below the first height that was set, and are between the first height of the state and the height of the block; each once, lower heights first. A report is refused only before a first height was set, below it, when its data do not conflict, or when the signer is unknown. (A report within two heights of the first height of the history is proposed, but cannot be executed, and the block that has it fails.)", "quantifier": "all histories of added reports, blocks on any branch with any reports, commits and first heights", "why_tests_cant": "Branches fork, are committed in any order or dropped, and old reports are thrown out meanwhile; a report proposed twice punishes twice.", "anchors": ["service/dsrmanager.go: dsrManager, dsrTracker", "service/transition.go: ensureRecordDoubleSignReportsInLock, commitDSRs"]}
{"id": "C85", "title": "A peer remembers the packets that came, and for long enough", "statement": "A packet is new exactly if it is not in the pool; what is in the pool was put since the pool was last cleared; the last packets, as many as all buckets but one hold, are in it, so no packet is taken twice within that many; and it never holds more than all buckets do. In the pool with seconds, what was put within as many seconds as it has buckets, and was not removed, is there, and what is there was put and not removed. No operation panics.", "quantifier": "all numbers and sizes of buckets, all sequences of puts, clears, removals and clock steps", "why_tests_cant": "What is forgotten depends on the whole sequence: the ring of buckets wraps, buckets are filled or skipped at any time, and clears and removals come in between.", "anchors": ["network/pool.go: PacketPool, TimestampPool"]}
{"id": "C86", "title": "The cache of block parts keeps what was used last, and never more than fits", "statement": "Put never panics, and stores a value unless its cost alone is more than the capacity; then nothing changes. What Get returns for a key is the last value stored for it. The costs of all values in the cache together are never more than the capacity. What goes first was not used for the longest time: a key that was last used later than one that is in the cache is in it too. A value stays as long as it fits together with all that was used since its last use. What is got for a hash and an index is the last message put whose part has that root and that index; putting a message panics exactly if its part decodes and has no proof.", "quantifier": "all capacities and costs, all sequences of puts and gets", "why_tests_cant": "Each put can throw out any number of values, depending on the costs and the order of all uses before; values of a key are replaced by ones with other costs.", "anchors": ["common/cache/costerlru.go: CosterLRU, Put, Get", "consensus/bpmcache.go"]}
{"id": "C87", "title": "Lists of votes, and the votes of a block, give back what was put in", "statement": "Votes put into a list come back, each as it was and in order, though what is equal in them is stored once; the list verifies exactly if each of them does. Verifying a list from elsewhere never panics, and then each of its votes can be got and verifies. The precommits of validators for one block come back from the commit vote list of the block with their parts of the proofs of each network type, given only the height, the id and the network type entries of the block and the validators; votes with different decisions make no such list; and whatever comes out of a commit vote list from elsewhere are votes of validators for that block.", "quantifier": "all votes, numbers of validators and network types, lists from elsewhere", "why_tests_cant": "What is shared, which network types are in use, and who voted, in which order, are different for each block.", "anchors": ["consensus/votelist.go: VoteList", "consensus/commitvotelist.go: newCommitVoteList, toVoteList", "consensus/votebase.go: Equal"]}
{"id": "C88", "title": "The number of transactions follows the last thirty blocks, and blocks keep their interval", "statement": "After a block with more than ten transactions, the number for the next blocks is what fits in the interval, less the mean time of finalization, at the speed of the last thirty such blocks, and at least ten; it fails exactly if these took no time at all. Smaller blocks change nothing, so once the number is ten or less and no block has more, it stays. The waiting time is between the least time and the interval, and with it the next block is a full interval after the proposal unless the least time is longer. Setting the interval never fails, scales the number, and the least time is never longer than the interval.", "quantifier": "all sequences of executions, settings, proposals and clock times", "why_tests_cant": "Sums are kept over a ring while entries are overwritten; errors in them would add up over days.", "anchors": ["chain/regulator.go: regulator", "service/transition.go: onWorldFinalize"]}
{"id": "C89", "title": "The trie cache gives what was put for the place and the hash", "statement": "Different places in the trie have different indices, and the first levels have exactly the indices of the part in memory. Data got for a place and a hash is the data of the last put for that place that was not too long, and its hash was the same; no other put can change it, neither in memory nor in the file. In the other direction, what was last put at a place within the depth is got, always in memory, and in the file once it reaches to the end of the slot.", "quantifier": "all sequences of puts, places, hashes and data", "why_tests_cant": "A slot of the file that runs over into the next one would give a wrong node only for data of certain lengths at neighbouring places.", "anchors": ["common/trie/cache/branchcache.go: BranchCache", "common/trie/cache/nodecache.go: indexByNibs"]}
{"id": "C90", "title": "The full trie cache, also after the migration, gives what was put and never fails", "statement": "No operation of a full cache fails, whether it is new or made from a branch cache, unless that had five levels of which some were in the file: then each access of one of these levels fails. In the first five levels, what is got is exactly the last data put there, before the migration (in memory) or after it, if its hash is the same. Deeper, what is got was put for this hash, at most 80000 nodes are kept, each once, and a node that was put is there for the next 79999 operations at least.", "quantifier": "all branch caches, all sequences of gets and puts before and after the migration", "why_tests_cant": "The migration is after thousands of accesses, the eviction after 80000 nodes.", "anchors": ["common/trie/cache/fullcache.go: FullCache", "common/trie/cache/fullcache.go: NewFullCacheFromBranch"]}
