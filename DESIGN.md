# Formal model of manta-rs in Lean 4 — design

The source is `/repo` (manta-rs, Rust), read as text. Nothing was compiled or run. The Lean project is
`/verif/lean` (Lean 4.33.0; Mathlib only in `Verif/Setup` and `Verif/Poseidon`, for fields, matrices, polynomials and
the tactics `ring`, `field_simp`, `linear_combination`). Every model definition carries a comment with the file
and lines of the code it models, and says where it is simplified.

## Conventions

* `&mut self` becomes "return the new value"; `Result` and `Option` stay data; a panic is an explicit value
  (`none` of an outer `Option`, or a constructor named `panic`).
* Hash functions, signatures, permutations, proof systems and routing functions are parameters. Whatever is
  assumed of one is a hypothesis of the theorem that needs it, never an axiom.
* Machine integers are `Nat`, except where the property is about overflow or byte width. The workspace does not
  set `overflow-checks`: debug builds panic on overflow, release builds wrap. Where this matters both are treated.
* `Vec`, `VecDeque` and iterators are `List`; `BTreeMap` and `HashMap` are sorted or duplicate-free association
  lists, or functions, as stated at each definition.
* Each area has a model (`Model.lean`, `…Model.lean`), helper files, and files with specification, property
  theorems and examples. The specification of a property does not use the helpers of the model: the Merkle root is
  defined from the leaf list, balances as sums, queues as lists, reference strings as powers, and so on.
* Beside the theorems there are `example`s in which their hypotheses are met by concrete, non-trivial data.

## Plan and outcome per property

Status: `proved` means the statement of `properties.jsonl` in full under the modelling assumptions; `partial` means that the full statement is false in the code or only a part is proved; the missing part is named here, in `MANIFEST.json` and by the suffix `_partial`; `_violated` theorems prove the negation.

| Property | Status | What is modelled | How proved |
|---|---|---|---|
| C01 Merkle root is a function of the leaf sequence only | proved | `node.rs`, `inner_tree.rs`, `full.rs`, `tree.rs` | invariant: every stored inner digest is the reference digest of its subtree, by induction over pushes; the reference is a recursion over the leaf list |
| C02 Every membership path handed out verifies | proved | `full.rs` `path`, `path.rs` `fold` | the siblings stored are the reference digests; folding them gives the reference root, induction over height |
| C03 Appends are refused exactly when the tree is full | partial | `push_digest`, `extend_digests` | all-or-none by case analysis on the remaining capacity |
| C04 The constant-space ledger tree agrees with the full tree | proved | `path.rs` `CurrentInnerPath`, `single_path.rs` | refinement of the single-path tree to the reference path of the last leaf, induction over height |
| C05 A verifying path binds the leaf | proved | `InnerPath::fold` | collision extraction, induction over the path |
| C06 Pruning never changes the root or proofs still needed | partial | `partial.rs`, `leaf_map.rs`, `PartialInnerTree` | invariant over mixed histories of appends, batches, removals and prunes; false part by witness |
| C07 Batch append equals one-by-one append | partial | `insert_range_and_join` | weak invariant for the nodes outside the last path, restored by single appends; violated in general |
| C08 Rolling back a fork restores the trunk | partial | `fork.rs` branches | relation between branch and reference sequence trunk ++ branch |
| C09 A branch computes the root of trunk plus pending leaves | partial | `fork.rs`, `tree.rs` commit and reset | refinement of histories to committed and pending leaf lists |
| C10 Forest routing is stable and isolated | proved | `forest.rs` | each tree sees the filter of the leaf list by its index; batch loop by induction over sorted items |
| C100 An accumulator built from a list and current paths works like the one it copies | partial | `from_leaves_and_path_unchecked`, `from_items_and_witnesses`, `sort_items` | the built tree satisfies the invariant of C06 with no leaf wanted; then C08 to C10 and C66 |
| C101 The transcript verifier accepts honest ceremonies and only complete, chained ones | partial | `groth16_phase2_verifier.rs`: `verify_ceremony`, `contribution_hashes` | acceptance characterized by induction over the rounds; the files of a coordinator by an invariant over all histories |
| C102 An honest ceremony client gets its contribution in and tells the truth about it | partial | `client.rs`: `build`, `query`, `compute_update`, `try_contribute`, `contribute`, composed with the coordinator of C41 to C45 | invariants over all histories of client and coordinator: a debt of one refusal per restart, what is in flight for the participant, the phases of a turn |
| C103 Scalar multiplication is the same natively and in circuits, by windows and by tables | partial | `algebra/mod.rs`: `Window`, `PrecomputedBaseTable`; `select_from_table`; `fixed_base_scalar_mul`, `lift_embedded_scalar`, `modulus_is_smaller`; points are elements of any monoid | induction over bits and chunks: every accumulator is a multiple of the point |
| C104 Circuits over unsigned integers compute with natural numbers | partial | `R1CS` as variables and equations over `ZMod p`, the gadgets called by `arkworks/constraint/mod.rs`, `eclair/num.rs` | each gadget sound for all assignments and completable; induction over the circuit; the decomposition is not assumed canonical |
| C105 Reduction modulo another prime gives the remainder | partial | `div_rem_mod_prime`, `rem_mod_prime`, `Rem::rem` | the quotient is solved for by inverting the modulus |
| C106 Encodings of the points of the powers of tau identify the points | partial | `ppot/serialization.rs`: `PpotSerializer`; readers deliver arbitrary pieces; curves are fields with coordinates and square roots (laws as hypotheses, instances for both groups) | byte arithmetic; order of the two roots; refutations for all points |
| C107 Accumulators, proofs and ceremony files are read back correctly | partial | `kzg.rs`: (de)serialization of `Accumulator`, `Proof`; `ppot/serialization.rs`: `calculate_mmap_position`, `read_g1_powers`, `read_g2_powers`, `read_subaccumulator`, `read_kzg_proof` | induction over the lists; offsets of the sections for every number of powers |
| C108 Hashing to the second group returns points of the group and binds all of its inputs | proved | `ppot/hashing.rs`, `hash_to_group` of `util.rs`; random words as a sequence, loops with fuel | 64-bit arithmetic of the masked words; induction over the rounds; independence of the fuel |
| C109 The serializer over the arkworks encodings reads what it writes | partial | `ArkworksSerialization`, default methods of `Deserializer`; the arkworks encodings are parameters with laws | from the laws |
| C11 Compressed and full paths convert without loss | proved | `path.rs` compression | round trips between inner and current paths by recursion over height |
| C110 The first powers of a ceremony are a ceremony | proved | `cast_to_subceremony`; truncation of an accumulator as the spec of `read_subaccumulator` (C107) | closed form of an update at every index; linear combinations with zero coefficients are those of the shorter lists |
| C111 A payment changes exactly the balances it should | partial | `wallet/mod.rs` `sync`, `check`, `sign`, `consolidate`, `post`, `post_consolidation` over the models of synchronization and signing; `Transaction::check` | provenance of every input and output by induction over batching (`Verif.Sign.Prov`), value conservation per post, then a multiset argument over unspent coins before and after; the error case by evaluation of a history |
| C112 The ledger accepts what an up-to-date wallet mints, pays and consolidates | proved | the signer of C27 and C28 over the protocol of C61 and C62: `build_pre_sender`, `receiver`, `build_post`, `ToPrivate::build`, `PrivateTransfer::build`, `ToPublic::build`; the ledger of C33 to C38; its accumulator and the signer's are compared shard by shard | the prover that signing assumes is derived from completeness of the proof system and C61; then induction over the posts with the forest as state; evaluation for the witness |
| C113 The signer's Merkle forest is a faithful accumulator | proved | the forest of forked partial trees of C10, C66 packed with the list of its leaves; `Accumulator::insert`, `insert_nonprovable`, `batch_insert_nonprovable`, `remove_proof` of release builds, `prune`, `prove`, `rollback`, `commit`; the calls of synchronization | each packed operation equals the operation of `Merkle.Forest`; the relation of C08 to the reference, which holds while no committed inner node is the default digest, carries every law; positions in leaf maps after a push; composition with C112; induction over the calls of synchronizations gives the accumulator laws of C111 and C131 (`c113_wallet`) |
| C114 The ledger accepts what an up-to-date wallet withdraws | partial | as C112 | as C112, restricted by shards; the rejection of stale roots from C33 and C36; evaluation for the witness |
| C115 Downloaded parameters are the published ones | partial | `manta-parameters/src/lib.rs`: `download_unchecked`, `download`, `download_if_invalid`, `verify_file`; `load_proving_context`, `try_load_proving_context`, `decode_proving_context`; the servers are data, BLAKE3 a parameter | unfolding; induction over assets and over attempts |
| C116 The library embeds what its list of checksums says | partial | `manta-parameters/build.rs`: `parse_checkfile` on characters, `compile_local_binary_file`, `compile_lfs`, `main`; `define_dat!` | induction over lines and files; what belongs to other stems is untouched |
| C117 The round numbers of the hash are the cheapest secure ones | partial | `poseidon/constants.rs`: security conditions in exact arithmetic, the search loops with their mutated variable, `strengthened`; `config/poseidon.rs` | the inner loop tries exactly the first secure candidate; invariant of the best so far in lexicographic order; linear arithmetic for the closed form |
| C118 Selecting from iterators in parallel loses nothing and ends | partial | `select_all.rs` as a transition system: tasks, queue, channels, listener, consumer, threads | invariant over all executions, a step for every waiting state, a decreasing weight |
| C119 A request to a remote signer gets the answer to that request | partial | the WebSocket client over a stream of frames and a server that answers in order; the HTTP client and its network | the k-th read is the k-th frame that ever came in; induction over requests |
| C12 Encoded values decode to themselves and leave the rest of the stream | proved | `codec.rs` encoders and decoders | byte lists, induction over lengths, for every lawful reader |
| C120 The compiled transfer circuit accepts exactly the inputs of valid transfers | proved | allocation and `build_validity_constraints` of transfers for `R1CS`, with the UTXO protocol, its configuration, Merkle paths, Poseidon and duplex sponge as constraint systems with public inputs (Verif/Circuit/Model.lean) | a calculus of gadgets: every piece is satisfiable exactly when the native condition holds and its results have the native values; allocation is a bijection between assignments and well-typed transfers; conservation by C32 |
| C121 Proofs are made for the constraint system the keys were made for | proved | `unknown_constraints`, `known_constraints` | the allocations depend on the transfer only through lengths |
| C122 Hash, encryption and Merkle gadgets compute the native functions | partial | the same gadgets, called on any constraint system | the calculus of C120 with the arguments' values as the known ones; the tag by a concrete hasher over the field of BN254 |
| C123 A satisfied circuit backs the post | proved | public inputs of posts and transfers, the ledger of C33 to C36 | fixed lengths make the encoding of a shape injective; composed with C120 and C59 |
| C124 Processing registrations registers exactly the signed ones | partial | `extract_registry`, `set_header`, `Record::parse`, the appending CSV writer and `load`; CSV quoting, base 58 and Ed25519 are parameters | the file after all runs is a concatenation of blocks; the loader finds the first row of the first block with the key |
| C125 A prepared ceremony starts at its first round | partial | `prepare` as a sequence of file writes on the directory of C45; `initialize` | reads back the files written; the registry comes last, so a prefix does not recover; establishes the start condition of C45 and C101 |
| C126 A password container opens to exactly what was put in | partial | `Cocoon` with header, prefix, configuration and the three pairs of ways in and out; `wrap`/`unwrap` of `MiniCocoon`. AEAD, PBKDF2 and generators are parameters | header read back field by field; an accepted string is cut into header, tag and data, which either equal those of a sealed item or are a forgery |
| C127 From constraints to histories: value is only created by breaking a hash | partial | ledger, circuits and trees of C01, C33 to C36, C120 with the functions of the configuration; the verifier is a parameter | a path of the tree's height that verifies against its root leads to a leaf or hits a collision or the default digest (Verif/Merkle/Bind.lean), so verified membership is membership and C65 applies to the witnesses that C123 gives |
| C128 No identifier is drawn twice | proved | signer of C27, wallet of C111, wiring of C112; the generator is a stream of draws with a position | the position only grows, and the identifiers in what is handed out are draws at increasing positions below it; induction over rounds of a batch, parts of a withdrawal, uses of the wallet |
| C129 The coins of a request belong to whom the request says | proved | signer of C27 on the protocol of C63 (Verif/Settle) | induction over the rounds of a batch for the outputs of a request; the published coins are those outputs (C29), identifiers are opaque (C128), and `open_with_check` inverts them (C92) |
| C13 Optional and fallible values survive encoding | partial | `Option`, `Result` codecs | violated: negation for all payloads |
| C130 Keys and proofs are read back, and used for the right circuit | partial | `serialize` and `deserialize` of verifying contexts and prepared points in three formats, `ArkReader`, `ArkWriter`, `encode`, `decode`, `try_from`, `generate_context`, `select`; the encodings of arkworks are parameters: readers as programs over `read_exact`, writers as lists of byte strings | laws of the parts give laws of the whole; a program reads the same bytes from a reader as from a list; more bytes do not change what is read |
| C131 Many wallets on one ledger keep one account book | proved | wallets of C111 with their signers and random streams on a ledger that keeps outputs, nullifiers and funds; which of the first posts of a request are accepted is free | refinement: an invariant over runs (every wallet has read a part of the ledger, outputs are made from different draws) gives the laws of C111 for every wallet in every state, and each action is a step of the book; prefixes of a batch keep the balance of the signer because every coin spent is stored or made by an earlier post |
| C132 Wallets with real trees on the simulation ledger keep one account book | proved | the wallets of C111 with the protocol of C112 and the forests of C113 on the ledger of C31-C37; checkpoints, shards, nullifier order, accounts and rejected posts are those of the models, nothing is assumed about what the ledger accepts | refinement to C131: an invariant relates shards, forest, nullifiers and accounts of the ledger to the record of made and spent coins and to every wallet's checkpoint; every push is shown to be an acceptance of a prefix; the forest of a synchronized wallet is the ledger's, so C112 gives acceptance; a history with four actions of two wallets is checked |
| C133 A refused post is told the first check it failed | proved | `validate` with all its checks (Verif/Ledger/Model.lean) | the list of conditions in order is the specification; each check of the code decides its condition, and lists compose |
| C134 The published keys are those of the last verified round | partial | `extract_keys`, and the loop of `verify_ceremony` with it; files as bytes with a cursor; failing devices are left out | the files after the loop by induction over the circuits (writing over a file from its beginning, twice the same is once); composed with the chain of C101 and the codec of C130 |
| C135 What is generated and published is what programs load | partial | `generate_from_seed`, the files of `generate_parameters`, `load_parameters` with all its parts, the paths of the library; on the build of C116 and the downloads of C115 | file names are different under every directory, so each write survives; the last data file of a stem is the published one; each loader is composed with the entry of the generator for its path |
| C136 The configuration of manta-pay is one in which wallets work | proved | the parameters of C132 instantiated with the Poseidon, duplex, AES and circuit models of C39, C68, C84 and C120; the circuit's view of a transfer forgets what it does not see | group laws from the order of the generator; decryption from C68; completeness: the transfers that wallets make pass the native check, C120 gives a satisfying assignment of the generated constraints with the transfer's public inputs, C121 that keys and proofs use the same constraints; equal digests of inputs that do not collide are traced back to equal coins through nullifier, item and commitment; a history of two wallets is computed |
| C137 Forks of a shared tree | partial | trunks and forks with their strong and weak pointers as numbers of allocations, all operations of both; branches and trees as in C09 | refinement to a reference in which trunks are sequences of leaves and forks know their trunk: a relation kept by every operation (pointers of trunks differ, a fork is attached exactly if its number is that of a trunk, and then branched off from its present leaves); rebasing from the facts on fresh branches and single appends; counterexamples for every height by running the reference |
| C138 Random values are uniform and fuzzed values differ | partial | samplers as programs that ask for words and numbers below a bound; the samplers of primitive types, arrays and iterators, selection, and fuzzing of bits, bytes, vectors, big integers and field elements | probabilities are sums over the answers; residues of words are counted; probabilities of sequences multiply; fuzzing is a choice among positions, its result is compared bit by bit; the difference of a fuzzed element is a power of two, which no odd modulus divides |
| C139 The keys that are published are Groth16 keys with everybody's secret in them | partial | nothing new: the coordinator of C41 to C45 with the verification of C75 as its configuration, the initialization of C93, the verifier of C101 and the key files of C134; random coefficients may depend on everything | an accepted contribution with a proper proof rescales a key by a nonzero factor; invariant of all histories: keys in memory and in the files of the last round are the first key rescaled; in histories without half refused contributions the factor is followed through, and acceptance with lucky coefficients is acceptance with all, so another verifier gets through; for directories induction over the chain of C101 |
| C14 Byte sinks and sources consume what they report | partial | readers and writers | exact behaviour of each reader and writer |
| C140 A failing proof is reported as such and changes nothing else | proved | Signing and consolidation as in C27, C28, C58, with an arbitrary proof system, against the same signer with one that never fails (`reliable`). | Each function of the signer follows its reliable version until the first post that is refused (`Follows`, closed under sequencing); induction over the pairs and rounds. |
| C141 Circuit measurements add up | proved | sizes with optional counts, their sum and difference, measuring after a call, the instrument with measured and direct calls, and the counts of `R1CS` | specification by four quantities, each with a value and whether it is kept; induction over the sequence of uses |
| C142 Adapters keep what the scheme below them promises | proved | encryption schemes as functions with panics; the plaintext, header and key adapters, hybrid encryption over any key agreement, sealed messages, and the three note schemes of manta-pay as stacks of them; signature adapters | a scheme's promise is for which key pairs and plaintexts it opens to what; induction over the stack of adapters; the stacks of manta-pay are shown to be the functions of C68 |
| C143 The ceremony server cannot get stuck | proved | requests as lists of actions on the three locks of the server, one list for each way in which a request can end, with guards released where their scope ends; threads of the runtime and threads for blocking closures; arrival of requests at any time | locks are taken in one order and never kept while waiting for a thread (a discipline on lists of actions, checked for every request); whoever waits for a lock waits for the holder of it, who runs and waits at most for a larger one |
| C144 Requests of the ceremony server take effect one after another | proved | requests as programs that lock, unlock, read and write what is behind the three locks of the server, file by file, each action depending on what was read before; any interleaving | two-phase locking in every section (checked for the programs); forward simulation in which a section takes effect at its first unlock; locks are taken in increasing order and what is left of the programs gets smaller with every action; each section run without interruption is an event of the model of C41 to C47, with the requests between two sections as its pending lists up to order |
| C145 A signature of a ceremony participant says one thing | proved | the bytes under the signatures of registrations, queries and contributions: nonce, bincode of a text, of a unit struct and of two vectors; signature scheme and encodings of states and proofs are parameters | encodings are cut at their length prefixes; a registration of `L` bytes of text would have to be a contribution with `L` states, which is longer; composed with the nonces of C41 |
| C146 Who registers with the client and keeps the secret is let in | partial | `register`, its link and `get_client_keys`; the form as a specification of what happens to the link; then processing and loading as in C124 and the checks of a request | the pieces of the link are those put in; trimming removes exactly the blanks around; the row is signed, so C124 gives the participant |
| C147 Every visible file of the data directory is checked when the library is built | proved | the walk over the data directory of `build.rs`, hidden entries, table of ignore files, extensions; crate `gitignore` as a parameter | induction over directory trees: walk and table against reading a path; then the loop of C116 on the selected files |
| C148 A timed value is not taken over before its time limit | proved | `Timed` of `time/lock.rs`, both readings of the clock explicit | invariant over histories: the stored time is the latest of the times of effective operations |
| C149 A precomputed ledger contains the sampled transactions | partial | `safe_fill_ledger`, `unsafe_fill_ledger`, `unsafe_push`; drawn posts and accounts arbitrary | violated in the checked mode by induction over the rounds (accounts appear only by funding); induction over the posts in the unchecked mode |
| C15 Encodings are unambiguous | proved | encoders | prefix-freeness composed along products, arrays, vectors |
| C16 An asset list is a faithful multiset of balances | proved | `asset.rs` `AssetList` | sortedness invariant and abstraction to a function id → value |
| C17 Withdrawals are all-or-nothing | proved | `withdraw` | exact condition and effect on the abstraction |
| C18 All balance stores agree | proved | `AssetList`, `BTreeMap`, `HashMap` stores (`balance.rs`) | bisimulation of histories on the abstraction |
| C19 A bulk withdrawal either happens completely or not at all | partial | `withdraw_all` | success condition by induction over the list; violated on failure |
| C20 Coin selection is exact | proved | `AssetMap::select`, `zeroes` | invariant of the selection fold |
| C21 Coin selection finds a payment whenever one exists | proved | `AssetMap::select` | completeness of the fold; overflow by witness |
| C22 Coin selection prefers exact then smallest covering coin | proved | `AssetMap::select` | characterisation of the chosen coins (an exact coin, else the smallest covering one, else the largest in turn) |
| C23 The coin map is an exact set of coins per key | proved | `AssetMap` insert, remove, and the methods for many coins | history refinement to a set of coins |
| C24 Net balance updates are preserved by normalization | partial | `functions.rs` normalization | net effect per id, loop invariant of the merge |
| C25 Wallet balances follow the signer | proved | wallet balance updates, checkpoints | per-id arithmetic |
| C26 Sync requests are trimmed to exactly the unseen data | partial | `functions.rs` pruning, `Checkpoint::prune` | list drop lemmas under the covering condition; deviations by witness |
| C27 Private transfer batching conserves value and terminates | proved | `functions.rs` `sign_private_transfer`, batching | induction over the number of coins |
| C28 Withdrawals to public accounts conserve value | proved | withdrawals and mints | as C27 |
| C29 A transfer becomes a post only with matching authorization | proved | `Transfer::into_post` | decision table over authorization and senders |
| C30 A post passes the authorization check only when signed or when no signature is required | proved | `TransferPost::has_valid_authorization_signature` | decision table |
| C31 Prover, post and ledger agree on the public inputs of a proof | proved | posting keys, `TransferPost::post` | list equalities |
| C32 The circuit constraints imply value and asset conservation | proved | the transfer circuit | equations of the circuit imply conservation in `Nat`, field bound explicit |
| C33 No double spend over any ledger history | partial | `validate`, `post`, simulation ledger | history invariant over pushes; nullifier set with the contract of hash sets |
| C34 No UTXO is registered twice and none is lost | partial | coin registration | history invariant: coins, shards, trees agree |
| C35 A validated post always applies | partial | validation and application | exact acceptance condition; overflow by witness |
| C36 Public balances change only by the post's amounts | proved | public balances | balance equation per push |
| C37 Pulling from a checkpoint returns exactly the unseen entries | partial | `pull`, `initial_read` | induction over interleavings of pushes and pulls |
| C38 Public proceeds go only to the accounts that were signed | partial | sinks of the ledger | violated; proved for equal accounts |
| C39 Authenticated note encryption round-trips | partial | `duplex.rs`, `poseidon/encryption.rs` | stream induction for every permutation |
| C40 A modified ciphertext is accepted only if tags collide | proved | tag check | exact verdict, forgery gives a state collision |
| C41 Ceremony requests cannot be replayed | partial | nonces in the coordinator | invariant over all interleavings of server steps |
| C42 Nobody waits in the ceremony queue twice | partial | `LockQueue` | queue invariant over events |
| C43 A participant contributes at most once | partial | update steps under separate locks | invariant on registry, pending updates and rounds; violated for overlapping requests |
| C44 A rejected contribution leaves the ceremony state unchanged | partial | per-circuit update loop | exact effect, then consequences |
| C45 The ceremony can be recovered from any crash point | partial | recovery files, `recover` | the file system at every crash point of every history |
| C46 A verified transcript chains every round | proved | `mpc.rs` transcripts | induction over rounds; projection and combination of parallel circuits |
| C47 Reloading the registry never overwrites participants | proved | CSV registry | reload is the identity on registered participants |
| C48 The duplicate check is exact | proved | `vec.rs` `all_unequal` | list induction |
| C49 Chunking loses and reorders nothing | proved | `chunk_by.rs`, `array.rs` | list induction with explicit iterator state |
| C50 The priority queue is first-in first-out within each level | proved | `vec_deque.rs` | refinement to a list, key multiset |
| C51 Transaction shapes are recognised exactly | proved | `canonical.rs` shapes | decision tables |
| C52 Signing does not change the signer's view of the ledger | partial | `functions.rs` `sign` | case analysis over every failure point |
| C53 A signed transfer message fixes the transfer body and the receiving accounts | proved | signed message | codec injectivity |
| C54 The encoding of a posted transfer identifies it | partial | encoder of posts | violated; equal bytes exactly for equal signature and body |
| C55 Synchronization keeps exactly the unspent coins, however the ledger is split | proved | `sync_with` and helpers | loop invariant per batch, then induction over batches |
| C56 Wallet balances equal the total of unspent coins | partial | `sync`, `process_sync_response` | system invariant of wallet and signer over histories |
| C57 Checkpoints count exactly the processed ledger items | partial | `Checkpoint`, `sbt_sync` | system invariant; violated for `sbt_sync` |
| C58 Consolidation merges exactly the requested coins into one | partial | `ConsolidationRequest`, `consolidate` | reuse of the batching lemma; admission rule by list induction |
| C59 The ledger accepts only posts whose proof is verified | partial | proof verification in the ledger | violated; exact effect |
| C60 One coin has one nullifier and one value | proved | nullifiers and commitments of the UTXO protocol | collision extraction |
| C61 Honestly built transfers satisfy the circuit | proved | honest minting and spending | the witness satisfies every equation |
| C62 Posts made by the owner pass the signature check | proved | Schnorr signature on posts | group algebra in any module-like action |
| C63 A coin sent to an address is recovered by its owner and only consistently | partial | opening of notes | correctness of agreement and hybrid encryption |
| C64 A stored leaf never has a stale proof | partial | partial trees | reference with wanted marks |
| C65 No sequence of posts creates value | partial | circuit + ledger | potential function over whole histories |
| C66 What the accumulator contains, it proves | partial | proofs kept by partial and forked trees | invariant on wanted leaves |
| C67 Opening a received note never crashes the wallet | partial | note converters | exact panic condition |
| C68 Note encodings lose nothing | proved | note converters and AES framing | byte-level round trips |
| C69 Key and header of authenticated encryption cannot be confused | partial | duplex set-up | injectivity for fixed lengths, identity of colliding framings |
| C70 The notes published with a coin are the sender's | partial | posts and notes | post surgery that the checks cannot see |
| C71 The ceremony lock is kept for the whole time limit | partial | lock timeouts | case analysis of all events |
| C72 Recovery files never share a name | proved | file names | decimal digits do not contain the separator |
| C73 A registration signature belongs to one pair of accounts | partial | registration messages | splitting at commas |
| C74 Honest phase 2 contributions are accepted | proved | `groth16/mpc.rs` `contribute`, `verify_transform`, `ratio.rs` | field algebra, linear combinations with arbitrary coefficients, induction over contributors |
| C75 An accepted phase 2 contribution extends the ceremony | partial | as C74 | accepted for all coefficients gives pointwise equations; the reset attack is a general theorem |
| C76 Verifying a ceremony at once agrees with verifying it step by step | partial | `verify_transform_all` (both) | transitivity of the ratio equations along the transcript |
| C77 The powers-of-tau accumulator holds the powers of the product of all secrets | proved | `kzg.rs` `update`, `verify_transform` | closed form by induction over contributors |
| C78 An accepted powers-of-tau contribution is an honest one | proved | as C77, `NonZero` | geometric sequences from power pairs |
| C79 Matrix inversion is exact | proved | `poseidon/matrix.rs` elimination and inversion | invariant of the elimination (row space, solutions), back substitution |
| C80 Matrix operations compute the products and refuse wrong shapes | partial | `poseidon/matrix.rs` products | sums over indices; witnesses for the shape checks |
| C81 Generated matrices are MDS | proved | `poseidon/mds.rs` `generate_mds` | Cauchy matrices are invertible by polynomial interpolation |
| C82 Sparse factorization computes the same rounds | partial | `poseidon/mds.rs` derivation and factorization | block algebra; induction over the number of partial rounds |
| C83 Preprocessed constants give the same permutation | proved | `poseidon/preprocessing.rs` | simulation between the schedules, accumulated keys by induction |
| C84 The Poseidon permutation is a bijection and hashing is its first output | proved | `poseidon/{mod,hash}.rs` | refinement to vectors, composition of bijections, power maps on finite fields |
| C85 Round constants are the self-shrunken register sequence and generation does not get stuck | partial | `poseidon/{lfsr,round_constants}.rs` | ring buffer refines the recurrence; Bézout identity over GF(2) bounds the loop |
| C86 A spend counts only against a root of the ledger and with a valid signature | proved | `Ledger::push`, `TransferPost::validate`, the root check | invariant that the forest is a function of the accepted posts |
| C87 A value saved to a file loads back unchanged | partial | `fs/serde.rs` over a universe of types, `cocoon` containers | structural recursion over types: stream invariant of the serializer, reader law of the deserializer |
| C88 No two blocks are encrypted under the same key and nonce | partial | `MiniCocoon::{from_password,encrypt,dump}` | unfolding, cancellation of the key stream; the claim itself is refuted |
| C89 A manipulated file does not load | partial | `MiniCocoon::parse`, `File::read` | induction over the containers; splicing by block algebra |
| C90 An interrupted save does not lose the stored value | partial | `File::save` as truncation and a sequence of blocks | proper prefixes of an encoding do not load |
| C91 An identity proof is accepted only from the owner of the address | partial | `identity_verification`, `identity_proof` | outright characterization of acceptance; the forgery is built from a satisfying transfer of value zero |
| C92 Transaction data are exactly the owner's coins of a post | proved | `transaction_data`, `open_with_check`, `TransactionData` | note round trip, induction over receivers |
| C93 The key of the trusted setup is a Groth16 key for the circuit | proved | `initialize`, `specialize_to_phase_2`, `add_dummy_constraints` on matrices; the Fourier transform by its sum | orthogonality of roots of unity, induction over the rows, polynomial division |
| C94 The estimated number of posts is the number of posts | partial | `estimate_transferposts` | counts of posts through batching and signing by induction |
| C95 Signing with transaction data never fails on own posts | proved | `sign_with_transaction_data` over C92 | every post of every round has an own first output, by induction over the rounds |
| C96 Different accounts have different keys | partial | `VecAccountMap`, `AccountTable`, `path_string` | injectivity of decimal numerals, invariant of the reachable tables; the claim on keys is refuted |
| C97 A stored, unlocked or copied signer continues like the original | partial | `StorageState`, `SignerState::{build,clone,load_accounts,drop_accounts}` | unfolding; refutation over all histories by the system invariant |
| C98 A wallet recovers from its signer alone | proved | `Wallet::{restart,reset_state,load_initial_state}` over C25/C56 | system invariant with a pruned empty request, total order of checkpoints |
| C99 Initial synchronization skips the past and misses nothing afterwards | proved | `initial_sync`, `InitialSyncRequest` | counts per shard by induction over the answers; coins of the past are hidden from the parameters, then the system invariant |

## Where code and claims disagree

Each entry is proved (theorem in parentheses) unless marked *read*, which means it was found by reading and is not
part of a theorem.

Merkle trees (`manta-crypto/src/merkle_tree`)
* Batch insertion does not update the last inner node when the batch starts at a right inner node and ends at a
  left one: wrong root until the next single append (`c07_violated`, `c06_violated`).
  Synchronization inserts the items of others by such batches, but commits at its end, which rebuilds the branch; so
  signing is not affected (`c113_wallet`).
* A bulk append that fills the tree exactly panics after appending everything (`c03_extend_exact_panics`,
  `c09_exact_commit_panics`).
* Removing the proof of a committed leaf before the last pair underflows: panic in debug builds
  (`c66_remove_committed_panics`), no effect in release builds (`c113_remove`), so proofs of spent coins pile up.
* `path(0)` of the empty tree succeeds (`c02_empty_zero`).
* Path compression needs digests that differ from the default (`c11_needs_nondefault`).
* `LeafVec`: pruned leaves stay listed and are reported as provable, removed leaves still get paths
  (`c64_vec_violated`, `c64_removed_path`, `c64_listing_violated`, `c66_vec_violated`).
* Forks of height two and forks of empty trunks have wrong roots (`c08_height_two_violated`, `c08_empty_violated`);
  a branch is refused although there is room (`c09_branch_refused`); marks of the branch are lost at a commit
  (`c09_marks_lost`); removing proofs on forked trees underflows (`c09_remove_panics`,
  `c66_remove_committed_panics`, `c66_remove_violated`).
* `Fuzz` of a field element is documented to change one bit; the changed number is reduced, so several bits may change
  (`c138_fuzz_field_violated`); the result is still never the element itself (`c138_fuzz_field`).
* `Fork::attach` counts the leaves at the old branching point besides those of the new trunk: on a trunk that is half full,
  after merging one fork no other can be attached again (`c137_attach_violated`); a fork that takes the last leaf makes
  `Trunk::merge` panic (`c137_fill_violated`).
* `from_leaves_and_path_unchecked` stores all leaves but only the path of the last: the tree says that it contains the
  others and gives wrong proofs (`c100_old_items_violated`).
* `prune` on a tree built with a positive starting index underflows (`c06_start_violated`). *Read*: `LeafHashMap` lists leaves in unspecified order.

Codec and utilities (`manta-util`)
* *Read*: `Timed` documents expiry after more than the limit; it expires when exactly the limit has passed (`c148_limit` states the code).
* `Option` and `Result` are encoded with tags opposite to those the decoder expects
  (`c13_option_some_decodes_to_none`, `c13_result_swapped`).
* Plain `read` panics on short input, array readers never advance, `Vec::write_ref` reports everything as
  unwritten, `to_array` panics, decoding a vector panics on allocation of the claimed length (`c14_*`).
* Padded chunking adds a chunk (`c49_padded_chunks_extra_chunk`).

Assets, wallet, signer (`manta-accounting`)
* `withdraw_all` is not atomic (`c19_violated`); selection sums overflow (`c21_select_overflow`).
* Normalization skips an id after an exact cancellation (`c24_disjoint_violated`).
* Trimming of synchronization requests panics, mislabels or drops unseen data (`c26_panics`, `c26_flag_violated`,
  `c26_lexicographic_drop`); a wallet behind its signer ends with a wrong balance (`c56_behind_violated`);
  `sbt_sync` counts UTXOs again (`c57_sbt_violated`).
* After a proof error in the middle of a batch the next synchronization commits the outputs that were never posted
  and counts them as received, so the wallet asks the ledger from a position that is too far and skips coins for good, while
  every call reports success (`c111_error_violated`).
* A failing proof during batching leaves unposted coins in the accumulator (`c52_violated`); consolidation admits a
  first coin of value zero (`c58_zero_first_accepted`).
* `sync_with` changes the state before normalization may fail (`c57_failed_violated`): signer and wallet then disagree.
* `SignerState::clone` rebuilds the checkpoint from the tree and loses the nullifier count (`c97_clone_violated`): the
  copy rejects the next request of a wallet that is in step with the original; the wallet starts over and recovers
  (`c97_clone_recovers`).
* `initial_sync` does not clear the stored nullifiers, and truncates their number from 128 to 64 bits (`c99_initial`
  states both).
* `estimate_transferposts` underflows on an empty selection (`c94_underflow_violated`), also for transfers of zero that
  are then signed (`c94_zero_violated`).
* **All accounts have the same keys**: `VecAccountMap::create_account` pushes the default index, so every account of a
  table is the default account (`c96_same_keys_violated`).

Transfers (`manta-accounting/src/transfer`)
* The canonical encoding of a post omits the sink accounts (`c15_post_not_injective`).
* The circuit ignores senders if there is no authorization (`c32_unauthorized_senders_ignored`; no circuit built by
  the code has this shape) and rejects empty opaque assets (`c61_empty_opaque_rejected`).
* `into_post` drops signed account lists of transfers without sinks (`c62_accounts_dropped`).
* Transparent coins are never recovered by their owner (`c63_transparent_violated`).
* Light notes and address partitions of unsigned posts can be changed by anybody (`c70_mint_notes_violated`,
  `c70_coin_hidden_violated`).
* **Identity proofs can be forged.** The circuit checks membership only of coins with a value, and verification of an
  identity proof only looks for the output of the accumulator with the virtual coin among the outputs that the post
  names. A post that spends two coins of value zero and names this output is accepted, whoever signs it
  (`c91_forged_violated`, `c91_forged_pay_violated`).

Simulation ledger (`manta-pay/src/simulation/ledger`)
* The verdict of the proof verifier is dropped (`c59_invalid_proof_accepted`, hence `c65_violated`).
* Hash and equality of nullifiers disagree: a set that meets the contract of `HashSet` may accept a coin twice
  (`c33_double_spend_violated`).
* Coins pushed to a full tree are accepted without a leaf (`c34_full_tree_violated`); deposits overflow after
  nullifiers were recorded (`c35_overflow_violated`, `c35_overflow_wraps`); `initial_read` skips entries
  (`c37_initial_read_violated`); withdrawals are credited to the submitter, not to the signed account
  (`c38_violated`).

Ciphers (`manta-pay/src/{config,crypto}`)
* Blocks of other lengths than the rate are truncated or panic (`c39_block_length_violated`); zero padding of key and
  header is ambiguous across lengths (`c69_framing_violated`).
* Light and outgoing notes with unreduced field bytes make the receiver panic, and whoever knows an address can
  send such a note (`c67_light_violated`, `c67_outgoing_violated`, `c67_sender_crashes_receiver`).

Poseidon (`manta-pay/src/crypto/poseidon`)
* The shape checks of matrix products compare the wrong numbers: products that exist are refused, others are answered
  or cut (`c80_shapes_violated`). Only square matrices are used by the library.
* `derive_mds_matrices` multiplies with the inverse from the wrong side: the factors of a matrix without symmetry do not
  multiply to it (`c82_violated`). Generated matrices are symmetric.
* Preprocessing drops the last key for an odd number of full rounds (`c83_odd_violated`); with fewer than two full
  rounds `permute` runs round 0 twice (`c84_no_full_rounds_violated`).
* Seeds of the constant generator are cut to the widths of their fields (`c85_separation_violated`); the bit generator
  loops forever on a zero register, which no seed gives (`c85_zero_violated`).
* *Read*: the domain tag is computed in 32-bit arithmetic (`1 << (WIDTH - 1)`), which overflows for widths above 31;
  decoding a state does not check its length.

Trusted setup (`manta-trusted-setup`)
* **Phase 2 accepts identity points in ratio proofs.** With the ratio `(0, 0)` every check of the proof is trivial, and
  after any ceremony anyone can replace the product of all secrets by a secret of their own, starting from the
  public initial state (`c75_violated`, and for the running coordinator `c139_erased_violated`, both verifiers). Phase 1 keeps identity points out when it deserializes
  (`c78_sound`, `c78_unchecked_proof`).
* `initialize` reads one power too many: it pushes `degree` instead of `degree - 1` elements of `h_query` (the capacity
  that is reserved), so a circuit that needs all powers of the accumulator panics (`c93_limit_violated`).
* The verification of a whole ceremony does not look at the states in between (`c76_intermediate_violated`).
* Requests can be replayed after a restart (`c41_violated`); a participant can wait twice (`c42_violated`) and
  contribute twice (`c43_violated`, `c43_restart_violated`); a contribution rejected for a later circuit has
  changed the earlier ones (`c44_violated`, `c44_breaks_transcript`); recovery fails if the crash was between round
  number and registry (`c45_violated`); a completed contribution takes the lock from its current holder
  (`c71_violated`); registration messages are ambiguous for accounts with commas (`c73_violated`).
* **The transcript verifier does not notice missing rounds**: it stops at the first missing file of a circuit and says
  that all checks were successful. Without one proof file the key of that circuit is an older one, for instance the one before any
  contribution, and the other circuits keep theirs (`c101_truncated_violated`). A contribution that was refused after some of
  its circuits were taken over (C44) makes it reject the directory (`c101_griefed_violated`). *Read*: the challenge files after the
  first are not compared, and the first state and challenge are trusted; `contribution_hashes` drops the lines that only
  some circuits have.
* **A slow contribution spoils the next one**: if the time of a participant runs out while their contribution is being verified, the next
  one is given the lock and the old state; their honest contribution then gets `BadRequest` and the client gives up
  (`c102_race_violated`). If the coordinator is killed between state transition and answer, the client reports a failure although
  the round exists (`c102_lost_answer_violated`).
* *Read*: the `start` endpoint returns the default nonce instead of the one in the registry, so with random registry nonces every start of the client costs
  one refused request (bounded by `c102_nonces`).

Encrypted files (`manta-accounting/src/fs`, `forks/cocoon`)
* **Key and nonce are constant per password**: `File::new` passes the seed `[0; 32]` and `encrypt` clones the generator,
  so all blocks of all files share one nonce (`c88_nonce_violated`), and the exclusive or of two ciphertext blocks is
  that of the plaintexts (`c88_leak_violated`). The source has a FIXME for the seed; a random seed alone would not
  help, as the blocks of one file would still share a nonce.
* Blocks are not bound to file or position (`c89_splice_violated`); a length of 2^63 or more in a container panics
  (`c89_panic_violated`).
* `Some(())` and similar values as the whole value are not written (`c87_lost_violated`).
* `save` truncates first (`c90_violated`). Read past the last block is an error, not `None` as documented (`blocks_dump`).

Circuit gadgets (`manta-crypto/src/arkworks`, `eclair`)
* **The gadget for reduction modulo a prime accepts every remainder**: the quotient is an unconstrained witness
  (`c105_sound_violated`). Nothing in the repository uses it; the circuit uses the hash as scalar without reducing it, which
  is right for points of the group order (`c103_hash_scalar`).
* **Fixed-base multiplication drops bits**: scalar bits and bases are zipped, the table of `scalar_bits` entries is three bits shorter than
  a variable of the constraint field (`c103_fixed_violated`). Used in a test only.
* `assert_within_range` admits widths of one bit less than the modulus, for which a sum of two integers in range can wrap to zero
  (`c104_add_violated`, e.g. `U253` over the scalar field of BN254); products wrap for any width from half the modulus on
  (`c104_mul_violated`). The values of the payment circuits have 128 bits and are only added.
* `select_from_table` documents its bits as most significant first and reads them least significant first
  (`c103_select_order_violated`); its only caller reverses them.
* *Read*: `define_uint!` defines `U110` with 100 bits.

Powers of tau (`manta-trusted-setup/src/groth16/ppot`, `kzg.rs`, `util.rs`)
* **Compressed points are not checked for the subgroup**, although `Deserializer::deserialize_compressed` is documented to do all checks
  (`c106_subgroup_violated`, `c107_subgroup_violated`). The first group of BN254 is the whole curve, so this concerns the second group.
  `read_subaccumulator` does check (`c107_file_sound`).
* **Short reads are ignored** (`let _ = reader.read(..)`): the rest of the point is taken to be zero (`c106_short_read_violated`).
* Unreduced coordinates and several encodings of infinity are accepted (`c106_canonical_violated`).
* An invalid point in an uncompressed file panics instead of giving an error (`c107_invalid_violated`).
* `calculate_mmap_position` is only called for the first element of a section, so its assertion never sees the number of powers:
  a larger ceremony silently continues in the next section (`c107_oversized_violated`).
* **`ArkworksSerialization::deserialize_compressed` calls `deserialize_uncompressed`**, so no compressed point can be read back
  (`c109_compressed_violated`, `c109_swapped_violated`); its `check` is the default, so `deserialize_uncompressed` checks nothing
  (`c109_checked_violated`). The type is not used in the repository.
* *Read*: `response` of `ppot/kzg.rs` hashes the accumulator in the arkworks encoding, not in that of the original ceremony; the branch for
  `ExtraYCoordinate` cannot be reached; `Accumulator::verify_transform` does not check the lengths of the lists itself (`Shape` in C78 and C110).

* **A withdrawal that needs several posts can be rejected half way** (`c114_stale_rejected`, `c114_to_public_violated`). `compute_to_public_transaction`
  proves all posts of a withdrawal against the accumulator as it was before the request, without inserting the change of earlier posts,
  while private transfers do insert it. `has_matching_utxo_accumulator_output` of the simulated ledger only knows present roots
  (manta-pay/src/simulation/ledger/mod.rs:489-502), and `push` applies the posts one after the other. If the change of the first post
  lands in the shard of a coin of the second, the second is rejected, with the first already paid out. With 256 shards this is a matter of
  chance. A ledger that remembers old roots would accept it; the trait leaves that to the ledger.

Parameters and constants
* **Downloads do not truncate** (`download_unchecked` opens with `create` and `write` only): if the file on disk is longer than the published
  data, the tail survives every download and the checksum never matches (`c115_longer_violated`). The file has to be deleted by hand.
* `download` writes before it compares, so an unsuccessful attempt destroys a valid file (`c115_destroyed_violated`). `download_if_invalid`
  does not have this problem. The status of the answer is not looked at: an error page counts as content, and only an empty body
  of the first server leads to the second being asked.
* `build.rs` stores checksums by the stem of the file: `x.dat` and `x.lfs` in one directory overwrite each other's (`c116_stem_violated`).
* The Poseidon configuration of arity 3 has 55 partial rounds where the search recommends 56 (`c117_shipped_violated`). It meets
  the security conditions, with one round of margin less than intended.
* `from_arity` shadows nothing: the inner loop changes the `rf` of the outer one. Harmless (`c117_search`).
* **`SelectAll` blocks forever in a small pool** (`c118_small_pool_violated`): every iterator's task waits for an answer inside the pool, and so
  does the listener. With fewer than two free threads the first `next` does not return.

Remote signers
* **WebSocket answers are shifted by one after a ping** (`c119_stale_violated`, `c119_shifted_violated`): `send` (websocket.rs:111-128) writes the request and takes exactly
  one frame. If that is a control frame (tungstenite hands pings and pongs to the reader) it returns `InvalidMessageFormat` and the answer
  stays in the stream; the same happens if the caller drops the future. From then on every request is given the answer to
  an earlier one, and no use of the connection ever repairs it (`c119_unread`). A second `sign` returns the posts of the first transaction, which the caller then
  submits. Requests carry no identifier that could be compared.
* The HTTP client panics on the first request if no network was set (`c119_network`), although the documentation of `wrap_request` says
  that the request is wrapped only if a network is there. It does not look at the status of an answer.

Circuits
* The circuit takes only the permutation of a hasher and recomputes the domain tag from the type (`new_constant`, hash.rs:139-141), while decoding keeps
  the tag it read (hash.rs:164-172). A hasher decoded with another tag hashes differently inside and outside of circuits (`c122_hash_violated`).
* The constraints built from a transfer with notes of other block lengths or paths of another length differ from the compiled ones; C121 asks for
  the lengths that the types' constructors give. Curve points that are public inputs are not checked to be in the prime order
  subgroup; harmless, because each is equated with a computed point (C120).

Registration and preparation
* `extract_registry` drops rows that do not deserialize (`flatten`): they are in neither file and in neither number (`c124_unread_violated`).
* Processing the registrations again with a new list of priorities has no effect on keys that are already in the file, because the loader keeps
  the first entry (`c124_promotion_violated`).
* `prepare` overwrites the files of round zero but does not clear the directory. In a used directory the recovery after a crash between state and
  registry of a round takes the registry that an earlier ceremony left for that round (`c125_used_violated`), instead of
  failing as in C45. The code has a TODO to refuse existing files.
* *Read*: `save_registry` and `extract_keys` open their files without `truncate`; a shorter content leaves the end of the old one behind. bincode ignores it.

Password containers (`forks/cocoon`; only `MiniCocoon` is used by the wallet)
* `Cocoon::from_seed`, `from_rng` and `from_entropy` keep a seeded generator that `encrypt` clones, so everything wrapped by one object has the same
  salt, key and nonce: two containers reveal the difference of their contents (`c126_reuse_violated`).
* The length field is trusted before authentication: `unwrap` panics from `2^64 - 60` on, `parse` from `2^63` on, and below that `parse` allocates
  what the header says (`c126_panic_violated`).

Keys and proofs
* `decode` of keys, points and field elements never returns the error of the reader: arkworks sees the failure first, and its error is returned
  (`c130_read_errors_violated`); `DecodeError::Read` is unreachable.
* `try_from` of proofs, points and field elements ignores trailing bytes, so the serde forms of posts are not unique (`c130_trailing_violated`).
* A verifying context is read with its prepared values, which are all that verification uses besides the points for the inputs; they are not
  compared with the key (`c130_prepared_violated`). The wallet's own parameters are protected by checksums (C115).
* Proving contexts are decoded without checks of points (`c130_checks`).
* *Read*: the feature `scale` of `manta-crypto` refers to `arkworks::codec` and to an encoded length of `Group`, neither of which exists; the
  type information it gives for a proof (a sequence) is not what it encodes (bytes without length).
* `extract_keys` opens the key files without truncating them: over a longer file the rest of the old one stays behind the new key, success is reported,
  and the file does not have the checksum of the key (`c134_leftover_violated`); readers do not notice. If the state cannot be read, the files have
  already been created (`c134_empty_violated`).
* `generate_parameters` opens its seventeen files in the same way: generated over longer files, the published files and their checksums differ from those of a
  run with the same seed in an empty directory (`c135_leftover_violated`), though the values loaded are the same (`c135_loaded`).
* `load_parameters` downloads over valid proving contexts: when a server breaks off it panics, and the file that was there is damaged
  (`c135_destroyed_violated`).
* `register_link` puts the account and the address in the link unescaped: with an ampersand in one of them the form gets something else than what was
  signed, and the organiser refuses the row (`c146_violated`).
* `safe_fill_ledger` funds one random account and submits the mint from another one, so the ledger rejects every
  mint of this kind and the answer is dropped; the trees of the generator then contain coins that the ledger does
  not have, and later spends against them are rejected too (`c149_mints_violated`, `c149_diverged`).

Read, not proved
* In the ceremony of `config/ppot.rs` a participant's identifier is the verifying key, and the priority in a registration is not covered by its signature.
* With `SBOX_EXPONENT` 0, which no configuration uses, the native S-box gives 1 and the one in circuits the input.
* `xpr_secret_key` panics for account indices from `2^31` on (`expect` on the hardened child number).
* A withdrawal of value zero yields an empty list of posts.

## Trusted base

1. Lean's kernel (4.33.0), and the axioms `propext`, `Classical.choice` and `Quot.sound`; which theorem uses which
   is listed below. There is no `sorry`, no own axiom, no `native_decide`, no `bv_decide`. `decide +kernel` is
   used in witnesses and examples; it is checked by the kernel.
2. That the model reads the code correctly. The citations are there to check this by hand. The mutation log
   (`seeded/LOG.jsonl`) records that realistic errors in the model break the theorems.
3. The hypotheses of the theorems on parameters, in particular: collision resistance is never assumed but collisions
   are extracted, or their absence *in the given history* is a hypothesis; soundness of the proof system is a
   hypothesis of C65 and C123 only (accepted posts are backed by assignments of the circuit; in C123 of the constraint system
   that is compiled for the shape of the post); correctness of AES-GCM is a
   hypothesis of C67/C68, correctness of the container cipher of C87, its unforgeability of C89; laws of accumulators and the prover are hypotheses of C27/C28.
4. The representation of prime order groups by discrete logarithms in `Verif/Setup` (exact for groups of prime order
   with a non-degenerate pairing).

## Code that is modelled

* `manta-util`: `codec.rs`, `vec.rs`, `iter/chunk_by.rs`, `iter/finder.rs`, `collections/vec_deque.rs`, `array.rs`
  (padding, chunking), `time/lock.rs`.
* `manta-crypto`: `merkle_tree/{node,inner_tree,path,full,single_path,tree,partial,leaf_map,fork,forest}.rs`;
  `permutation/{sponge,duplex}.rs`; `encryption/hybrid.rs`; `algebra/diffie_hellman.rs`; `signature/mod.rs`
  (Schnorr); `arkworks/{ratio,pairing}.rs` (the checks); `algebra/mod.rs` (windows, tables); `arkworks/algebra.rs` (scalars, multiplication);
  `arkworks/constraint/mod.rs`, `eclair/{bool,num}.rs` (the compiler and its gadgets); `merkle_tree/path.rs`,
  `permutation/{sponge,duplex}.rs` and `encryption/hybrid.rs` in circuits.
* `forks/cocoon`: `lib.rs`, `mini.rs`, `format.rs` and `header.rs`.
* `manta-accounting`: `asset.rs`; `key.rs` (accounts); `fs/{mod,serde}.rs`; `wallet/balance.rs`; `wallet/mod.rs` (synchronization, initial synchronization, restart, checkpoints, balance
  updates); `wallet/signer/functions.rs` (synchronization, selection, batching, signing, consolidation, identity proofs, transaction data);
  `wallet/signer/nullifier_map.rs`; `transfer/mod.rs` (allocation, constraints, posts, validation, posting, identity proofs);
  `transfer/canonical.rs` (shapes, selection, transaction data); `transfer/{sender,receiver,batch}.rs`;
  `transfer/utxo/{protocol,auth}.rs`.
* `manta-pay`: `simulation/ledger/mod.rs`; `signer/base.rs` (checkpoint, identity verification); `signer/client/{websocket,http,network}.rs`; `parameters.rs` and
  `manta-parameters` (downloads, build script); `key.rs` (paths); `config/utxo.rs` (note encodings and
  ciphers); `crypto/poseidon/*.rs` (permutation, hash, matrices, preprocessing, constants, encryption; in and out of circuits);
  `crypto/encryption/aes.rs` (framing).
* `manta-trusted-setup`: `mpc.rs`; `groth16/mpc.rs` (initialization, contribution and verification); `groth16/kzg.rs`
  (accumulator, contribution, verification, serialization); `groth16/ppot/{serialization,hashing}.rs`; `util.rs` (hash to group, linear combinations, interfaces of serializers); `ceremony/*`;
  `groth16/ceremony/{coordinator,server,client}.rs` and `config/ppot.rs` (server side, processing of registrations); `bin/groth16_phase2_verifier.rs`.

## Code that is not modelled

* Elliptic curve and field arithmetic, Groth16 proving and verification, the gadgets of ark-r1cs-std (their equations are written out in
  `Verif/Gadget/Cs.lean`; `Verif/Circuit` is built on them, with the
  allocation of curve points and the multiplication of points by scalars as one constraint each), AES and Blake2, random number generators.
* serde (apart from the file format of `fs/serde.rs`), `CanonicalSerialize` of the curves and bincode formats (apart from the identity-point check), HTTP and WebSocket below messages, the async
  runtime (steps between `.await`s on locks are atomic), the file system beyond whole-file writes.
* Memory exhaustion, time beyond the lock timeouts, process signals.
* `manta-pay/src/{bin,test,simulation except ledger}`, `manta-benchmark`, `workspace-hack`,
  `manta-crypto/src/{dalek,ecc}`, the wrappers of generators in `rand.rs`, and the rest of `eclair` (interfaces and wrappers).

## Axioms per theorem

Output of `#print axioms` for every theorem named in `MANIFEST.json`: p = `propext`, c = `Classical.choice`, q = `Quot.sound`, – = none. No other axiom occurs.

| Property | Theorems (axioms) |
|---|---|
| C01 | `Merkle.c01_root` (cqp), `Merkle.c01_determined` (cqp) |
| C02 | `Merkle.c02_path_verifies` (cqp), `Merkle.c02_out_of_range` (cqp), `Merkle.c02_empty_zero` (p) |
| C03 | `Merkle.c03_push` (cqp), `Merkle.c03_extend_partial` (cqp), `Merkle.c03_extend_exact_panics` (qp) |
| C04 | `Merkle.c04_agrees` (cqp), `Merkle.c04_current_path` (cqp), `Merkle.c04_raw` (p) |
| C05 | `Merkle.c05_binding` (cqp), `Merkle.c05_determined` (cqp), `Merkle.c05_tree` (cqp) |
| C06 | `Merkle.c06_single` (cqp), `Merkle.c06_out_of_range` (cqp), `Merkle.c06_partial` (cqp), `Merkle.c06_settled_partial` (cqp), `Merkle.c06_violated` (p), `Merkle.c06_start_violated` (qp) |
| C07 | `Merkle.c07_batch_partial` (cqp), `Merkle.c07_settled_partial` (cqp), `Merkle.c07_violated` (p) |
| C08 | `Merkle.c08_trunk_untouched` (qp), `Merkle.c08_reset` (qp), `Merkle.c08_full_partial` (cqp), `Merkle.c08_pruned_partial` (cqp), `Merkle.c08_empty_violated` (p), `Merkle.c08_height_two_violated` (p) |
| C09 | `Merkle.c09_full_partial` (cqp), `Merkle.c09_pruned_partial` (cqp), `Merkle.c09_appends` (cqp), `Merkle.c09_committed_leaves` (p), `Merkle.c09_exact_commit_panics` (p), `Merkle.c09_remove_panics` (p), `Merkle.c09_marks_lost` (p), `Merkle.c09_branch_refused` (p), `Merkle.c08_height_two_violated` (p) |
| C10 | `Merkle.c10_isolated` (qp), `Merkle.c10_answers` (qp), `Merkle.c10_partial_trees` (cqp), `Merkle.c10_forked_trees` (cqp) |
| C100 | `Merkle.c100_tree_partial` (cqp), `Merkle.c100_accumulator` (cqp), `Merkle.c100_old_items_violated` (qp) |
| C101 | `Ceremony.c101_circuit_iff` (cqp), `Ceremony.c101_accept_iff` (cqp), `Ceremony.c101_honest_partial` (cqp), `Ceremony.c101_hashes_partial` (cqp), `Ceremony.c101_hash_rounds` (qp), `Ceremony.c101_truncated_violated` (cqp), `Ceremony.c101_griefed_violated` (cqp) |
| C102 | `Ceremony.c102_nonces` (cqp), `Ceremony.c102_outcome_partial` (cqp), `Ceremony.c102_accepted_partial` (cqp), `Ceremony.c102_race_violated` (cqp), `Ceremony.c102_lost_answer_violated` (p) |
| C103 | `Gadget.c103_select` (cqp), `Gadget.c103_select_order_violated` (qp), `Gadget.c103_window` (cqp), `Gadget.c103_window_zero` (qp), `Gadget.c103_circuit` (cqp), `Gadget.c103_fixed_partial` (cqp), `Gadget.c103_fixed_violated` (cqp), `Gadget.c103_modulus` (qp), `Gadget.c103_scalar` (cqp), `Gadget.c103_hash_scalar` (cqp), `Gadget.c103_hash_scalar_order_violated` (p) |
| C104 | `Gadget.c104_range` (cqp), `Gadget.c104_range_panic` (qp), `Gadget.c104_circuit` (cqp), `Gadget.c104_add_violated` (cqp), `Gadget.c104_mul_violated` (cqp) |
| C105 | `Gadget.c105_native` (qp), `Gadget.c105_honest` (cqp), `Gadget.c105_sound_partial` (qp), `Gadget.c105_sound_violated` (cqp), `Gadget.c105_large` (qp) |
| C106 | `Ppot.c106_size` (qp), `Ppot.c106_compressed` (cqp), `Ppot.c106_uncompressed` (cqp), `Ppot.c106_injective` (cqp), `Ppot.c106_valid` (qp), `Ppot.c106_subgroup_violated` (cqp), `Ppot.c106_canonical_violated` (cqp), `Ppot.c106_short_read_violated` (cqp) |
| C107 | `Ppot.c107_accumulator` (cqp), `Ppot.c107_accumulator_sound` (qp), `Ppot.c107_proof` (cqp), `Ppot.c107_proof_sound` (qp), `Ppot.c107_file` (cqp), `Ppot.c107_file_sound` (qp), `Ppot.c107_proof_file` (cqp), `Ppot.c107_subgroup_violated` (cqp), `Ppot.c107_invalid_violated` (cqp), `Ppot.c107_oversized_violated` (cqp) |
| C108 | `Ppot.c108_input` (cqp), `Ppot.c108_seed` (cqp), `Ppot.c108_words` (qp), `Ppot.c108_uniform` (cqp), `Ppot.c108_first` (qp), `Ppot.c108_coords` (cqp), `Ppot.c108_sign` (cqp), `Ppot.c108_point` (cqp), `Ppot.c108_candidates` (cqp), `Ppot.c108_sampled` (qp), `Ppot.c108_start` (cqp), `Ppot.c108_hash` (cqp) |
| C109 | `Ppot.c109_uncompressed_partial` (qp), `Ppot.c109_compressed_violated` (–), `Ppot.c109_swapped_violated` (–), `Ppot.c109_checked_violated` (qp) |
| C11 | `Merkle.c11_tree` (cqp), `Merkle.c11_compress_expand` (cqp), `Merkle.c11_expand_compress` (cqp), `Merkle.c11_rejects` (qp), `Merkle.c11_needs_nondefault` (p) |
| C110 | `Setup.c110_elements` (cqp), `Setup.c110_srs` (qp), `Setup.c110_update` (cqp), `Setup.c110_verify` (cqp), `Setup.c110_accepted` (cqp), `Setup.c110_replay` (cqp) |
| C111 | `Pay.c111_refused` (cqp), `Pay.c111_paid` (cqp), `Pay.c111_withdrawn` (cqp), `Pay.c111_minted` (cqp), `Pay.c111_consolidated` (cqp), `Pay.c111_received` (cqp), `Pay.c111_unsynced` (qp), `Pay.c111_error_violated` (qp) |
| C112 | `Settle.c112_private_transfer` (cqp), `Settle.c112_consolidation` (cqp), `Settle.c112_mint` (cqp) |
| C113 | `Settle.c113_step` (cqp), `Settle.c113_remove` (cqp), `Settle.c113_reachable` (cqp), `Settle.c113_committed` (cqp), `Settle.c113_contains` (qp), `Settle.c113_laws` (cqp), `Settle.c113_grows` (cqp), `Settle.c113_member` (cqp), `Settle.c113_ready` (cqp), `Settle.c113_private_transfer` (cqp), `Settle.c113_wallet` (cqp) |
| C114 | `Settle.c114_to_public_partial` (cqp), `Settle.c114_to_public_single` (cqp), `Settle.c114_stale_rejected` (cqp), `Settle.c114_to_public_violated` (cqp) |
| C115 | `Params.c115_download` (qp), `Params.c115_if_invalid` (qp), `Params.c115_contexts` (qp), `Params.c115_complete_partial` (qp), `Params.c115_longer_violated` (cqp), `Params.c115_destroyed_violated` (qp) |
| C116 | `Params.c116_checkfile` (qp), `Params.c116_builds_iff` (cqp), `Params.c116_dat_partial` (cqp), `Params.c116_lfs_partial` (cqp), `Params.c116_stem_violated` (cqp) |
| C117 | `Poseidon.c117_search` (cqp), `Poseidon.c117_closed` (cqp), `Poseidon.c117_float` (qp), `Poseidon.c117_bounds` (cqp), `Poseidon.c117_margin` (cqp), `Poseidon.c117_secure` (cqp), `Poseidon.c117_level` (qp), `Poseidon.c117_shipped_partial` (cqp), `Poseidon.c117_shipped_violated` (cqp) |
| C118 | `Select.c118_order` (cqp), `Select.c118_complete` (cqp), `Select.c118_progress` (cqp), `Select.c118_terminates` (cqp), `Select.c118_delivers` (cqp), `Select.c118_small_pool_violated` (cqp) |
| C119 | `Client.c119_own_partial` (qp), `Client.c119_shifted_violated` (qp), `Client.c119_unread` (qp), `Client.c119_stale_violated` (qp), `Client.c119_network` (qp), `Client.c119_separate` (–), `Client.c119_numbers` (p) |
| C12 | `Codec.c12_uint` (qp), `Codec.c12_uint_short` (qp), `Codec.c12_uint_canonical` (qp), `Codec.c12_unit` (–), `Codec.c12_bool` (qp), `Codec.c12_pair` (p), `Codec.c12_array` (p), `Codec.c12_vec` (qp), `Codec.c12_asset_vec` (qp), `Codec.c12_to_vec` (p), `Codec.c12_from_vec` (qp) |
| C120 | `Circuit.c120_exact` (cqp), `Circuit.c120_total` (cqp), `Circuit.c120_conservation` (cqp) |
| C121 | `Circuit.c121_same` (cqp) |
| C122 | `Circuit.c122_own_tag` (cqp), `Circuit.c122_hash_partial` (cqp), `Circuit.c122_encrypt` (cqp), `Circuit.c122_path` (cqp), `Circuit.c122_hash_violated` (cqp) |
| C123 | `Circuit.c123_backed` (cqp), `Circuit.c123_ledger` (cqp) |
| C124 | `Ceremony.c124_run` (cqp), `Ceremony.c124_registry` (cqp), `Ceremony.c124_claimed` (cqp), `Ceremony.c124_unread_violated` (cqp), `Ceremony.c124_promotion_violated` (cqp) |
| C125 | `Ceremony.c125_starts` (cqp), `Ceremony.c125_prepared` (cqp), `Ceremony.c125_interrupted` (qp), `Ceremony.c125_fails` (qp), `Ceremony.c125_used_violated` (p) |
| C126 | `Fs.Container.c126_roundtrip` (cqp), `Fs.Container.c126_format` (qp), `Fs.Container.c126_authentic` (cqp), `Fs.Container.c126_agree` (cqp), `Fs.Container.c126_untouched` (p), `Fs.Container.c126_mini` (qp), `Fs.Container.c126_tampered` (cqp), `Fs.Container.c126_fresh` (p), `Fs.Container.c126_panic_violated` (cqp), `Fs.Container.c126_reuse_violated` (cqp) |
| C127 | `Circuit.c127_conserved_partial` (cqp), `Circuit.c127_witnesses_partial` (cqp), `Circuit.c127_inflation_partial` (cqp), `Circuit.c127_violated` (cqp) |
| C128 | `Sign.c128_sign` (cqp), `Sign.c128_consolidate` (cqp), `Pay.c128_once` (cqp), `Pay.c128_distinct` (cqp), `Settle.c128_rand` (cqp) |
| C129 | `Settle.c129_private` (cqp), `Settle.c129_consolidation` (cqp), `Settle.c129_mint` (cqp), `Settle.c129_public` (cqp) |
| C13 | `Codec.c13_option_some_decodes_to_none` (qp), `Codec.c13_option_roundtrip_false` (qp), `Codec.c13_result_swapped` (qp), `Codec.c13_option_partial` (qp) |
| C130 | `Keys.c130_contexts` (qp), `Keys.c130_generated` (–), `Keys.c130_codec` (qp), `Keys.c130_truncated` (qp), `Keys.c130_write_errors` (–), `Keys.c130_readers` (p), `Keys.c130_missing` (qp), `Keys.c130_verify` (qp), `Keys.c130_bytes` (p), `Keys.c130_checks` (qp), `Keys.c130_proof` (qp), `Keys.c130_read_errors_violated` (p), `Keys.c130_trailing_violated` (–), `Keys.c130_prepared_violated` (qp) |
| C131 | `World.c131_refines` (cqp), `World.c131_reported` (cqp), `World.c131_answers` (cqp), `World.c131_measure` (cqp) |
| C132 | `Net.c132_refines` (cqp), `Net.c132_reported` (cqp), `Net.c132_pays` (cqp), `Net.c132_consolidates` (cqp), `Net.c132_mints` (cqp), `Net.c132_withdraws` (cqp), `Net.c132_setup` (qp), `Net.c132_simulation` (cqp) |
| C133 | `Ledger.c133_first` (cqp), `Ledger.c133_reason` (cqp) |
| C134 | `Keys.c134_published` (cqp), `Keys.c134_failed` (cqp), `Keys.c134_answer` (p), `Keys.c134_exact_partial` (p), `Keys.c134_leftover_violated` (qp), `Keys.c134_empty_violated` (p) |
| C135 | `Params.c135_together` (–), `Params.c135_written` (cqp), `Params.c135_loaded` (cqp), `Params.c135_loads_partial` (cqp), `Params.c135_checked` (cqp), `Params.c135_leftover_violated` (cqp), `Params.c135_destroyed_violated` (cqp) |
| C136 | `Manta.Config.c136_sane` (cqp), `Manta.Config.c136_quiet` (cqp), `Manta.Config.c136_refines` (cqp), `Manta.Config.c136_reported` (cqp), `Manta.Config.c136_pays` (cqp), `Manta.Config.c136_consolidates` (cqp), `Manta.Config.c136_mints` (cqp), `Manta.Config.c136_withdraws` (cqp) |
| C137 | `Merkle.c137_forks_partial` (cqp), `Merkle.c137_pruned_partial` (cqp), `Merkle.c137_attach_violated` (cqp), `Merkle.c137_fill_violated` (cqp) |
| C138 | `Rand.c138_bool` (cqp), `Rand.c138_unsigned` (cqp), `Rand.c138_signed` (cqp), `Rand.c138_u64` (cqp), `Rand.c138_u128` (cqp), `Rand.c138_independent` (cqp), `Rand.c138_array` (cqp), `Rand.c138_select` (cqp), `Rand.c138_fuzz_u8` (cqp), `Rand.c138_fuzz_big` (cqp), `Rand.c138_fuzz_vec` (cqp), `Rand.c138_fuzz_field` (cqp), `Rand.c138_fuzz_field_violated` (cqp) |
| C139 | `Whole.c139_always_partial` (cqp), `Whole.c139_ceremony_partial` (cqp), `Whole.c139_published_partial` (cqp), `Whole.c139_factor` (cqp), `Whole.c139_usable` (cqp), `Whole.c139_erased_violated` (cqp) |
| C14 | `Codec.c14_read_exact_partial` (qp), `Codec.c14_read_panics_iff_short` (qp), `Codec.c14_array_reader_never_advances` (p), `Codec.c14_from_array_pair_wrong` (qp), `Codec.c14_vec_write_ref_reports_all_unwritten` (p), `Codec.c14_vec_retry_diverges` (p), `Codec.c14_io_write_partial` (p), `Codec.c14_vec_write_drain` (p), `Codec.c14_read_all` (p), `Codec.c14_to_array` (qp), `Codec.c14_to_array_pair_panics` (qp), `Codec.c14_to_array_uint_partial` (qp), `Codec.c14_vec_decode_panics` (qp) |
| C140 | `Sign.c140_outcome` (qp), `Sign.c140_exact` (qp), `Sign.c140_covered` (cqp), `Sign.c140_consolidate` (qp) |
| C141 | `Circuit.Measure.c141_sum` (p), `Circuit.Measure.c141_difference` (cqp), `Circuit.Measure.c141_inverse` (cqp), `Circuit.Measure.c141_panics` (cqp), `Circuit.Measure.c141_use` (cqp), `Circuit.Measure.c141_uses` (cqp), `Circuit.Measure.c141_totals` (cqp), `Circuit.Measure.c141_safe` (cqp), `Circuit.Measure.c141_after` (qp), `Circuit.Measure.c141_printed` (–), `Circuit.Measure.c141_compiler` (cqp) |
| C142 | `Cipher.Adapters.c142_stack` (p), `Cipher.Adapters.c142_message` (p), `Cipher.Adapters.c142_derive` (–), `Cipher.Adapters.c142_derive_needed` (qp), `Cipher.Adapters.c142_signature` (–), `Cipher.Adapters.c142_stacks` (qp), `Cipher.Adapters.c142_notes` (cqp) |
| C143 | `Ceremony.Locks.c143_exclusive` (qp), `Ceremony.Locks.c143_suspended` (qp), `Ceremony.Locks.c143_progress` (cqp), `Ceremony.Locks.c143_drains` (qp), `Ceremony.Locks.c143_answers` (cqp) |
| C144 | `Ceremony.Serial.c144_serial` (qp), `Ceremony.Serial.c144_server` (cqp), `Ceremony.Serial.c144_complete` (cqp), `Ceremony.Serial.c144_invariants` (cqp) |
| C145 | `Ceremony.c145_request` (qp), `Ceremony.c145_separate` (cqp), `Ceremony.c145_registration` (cqp), `Ceremony.c145_agreement` (cqp), `Ceremony.c145_row` (cqp) |
| C146 | `Ceremony.c146_form_partial` (cqp), `Ceremony.c146_keys` (cqp), `Ceremony.c146_typed` (cqp), `Ceremony.c146_admitted_partial` (cqp), `Ceremony.c146_violated` (cqp) |
| C147 | `Params.c147_walk` (qp), `Params.c147_name` (cqp), `Params.c147_builds_iff` (cqp), `Params.c147_embedded` (cqp) |
| C148 | `Util.c148_limit` (qp), `Util.c148_exclusive` (cqp), `Util.c148_value` (qp) |
| C149 | `Ledger.c149_mints_violated` (cqp), `Ledger.c149_diverged` (cqp), `Ledger.c149_funded_partial` (cqp), `Ledger.c149_unsafe` (qp) |
| C15 | `Codec.c15_of_roundtrip` (p), `Codec.c15_uint` (qp), `Codec.c15_bool` (qp), `Codec.c15_unit` (p), `Codec.c15_pair` (p), `Codec.c15_array` (qp), `Codec.c15_vec` (qp), `Codec.c15_option` (qp), `Codec.c15_result` (qp), `Codec.c15_body` (qp) |
| C16 | `Asset.AList.c16_value` (cqp), `Asset.AList.c16_contains` (cqp), `Asset.AList.c16_deposit` (cqp), `Asset.AList.c16_remove` (cqp), `Asset.AList.c16_retain` (cqp), `Asset.AList.c16_history` (cqp), `Asset.AList.c16_no_panic` (cqp), `Asset.AList.c16_from_iter` (cqp) |
| C17 | `Asset.AList.c17_withdraw` (cqp), `Asset.AList.c17_withdraw_unchecked` (p), `Asset.c17_map_withdraw` (qp) |
| C18 | `Asset.c18_stores_agree` (cqp) |
| C19 | `Asset.AList.c19_withdraw_all_partial` (cqp), `Asset.AList.c19_violated` (cqp) |
| C20 | `Asset.AMap.c20_select_exact` (cqp), `Asset.AMap.c20_zeroes` (qp), `Asset.AMap.c20_asset_vector_with_id` (qp) |
| C21 | `Asset.AMap.c21_select_complete` (cqp), `Asset.AMap.c21_select_overflow` (qp) |
| C22 | `Asset.AMap.c22_select_preference` (cqp) |
| C23 | `Asset.AMap.c23_coin_set` (cqp), `Asset.AMap.c23_bulk` (cqp) |
| C24 | `Wallet.c24_net` (cqp), `Wallet.c24_error` (cqp), `Wallet.c24_disjoint_partial` (cqp), `Wallet.c24_disjoint_violated` (qp) |
| C25 | `Wallet.c25_full` (cqp), `Wallet.c25_partial_update` (cqp), `Wallet.c25_checkpoint` (qp) |
| C26 | `Wallet.c26_refused` (p), `Wallet.c26_prune_partial` (cqp), `Wallet.c26_panics` (p), `Wallet.c26_flag_violated` (p), `Wallet.c26_lexicographic_drop` (p) |
| C27 | `Sign.c27_private_transfer` (cqp), `Sign.c27_insufficient` (cqp) |
| C28 | `Sign.c28_to_public` (cqp), `Sign.c28_to_private` (qp), `Sign.c27_insufficient` (cqp) |
| C29 | `Transfer.c29_signed` (qp), `Transfer.c29_unsigned` (qp), `Transfer.c29_error_iff` (p) |
| C30 | `Transfer.c30_check` (p), `Transfer.c30_ok_iff` (p) |
| C31 | `Transfer.c31_post` (qp), `Transfer.c31_ledger` (p) |
| C32 | `Transfer.c32_conservation` (cqp), `Transfer.c32_openings` (cqp), `Transfer.c32_unauthorized_senders_ignored` (p), `Transfer.c32_small_field_wraps` (p) |
| C33 | `Ledger.c33_no_double_spend_partial` (cqp), `Ledger.c33_reuse_rejected_partial` (cqp), `Ledger.c33_replay_rejected` (cqp), `Ledger.c33_accepted` (cqp), `Ledger.c33_rejected_no_effect` (p), `Ledger.c33_push_prefix` (p), `Ledger.c33_double_spend_violated` (qp) |
| C34 | `Ledger.c34_coins` (cqp), `Ledger.c34_one_shard` (cqp), `Ledger.c34_monotone` (cqp), `Ledger.c34_tree_partial` (cqp), `Ledger.c34_full_tree_violated` (qp) |
| C35 | `Ledger.c35_applied_iff` (cqp), `Ledger.c35_applies_partial` (cqp), `Ledger.c35_push_partial` (cqp), `Ledger.c35_overflow_violated` (p), `Ledger.c35_overflow_wraps` (p) |
| C36 | `Ledger.c36_balances` (cqp), `Ledger.c36_not_accepted` (cqp), `Ledger.c36_set_balance` (qp) |
| C37 | `Ledger.c37_prefix` (cqp), `Ledger.c37_complete` (cqp), `Ledger.c37_nodup` (cqp), `Ledger.c37_initial_read_violated` (p), `Ledger.c37_initial_read_exact` (cqp) |
| C38 | `Ledger.c38_violated` (p), `Ledger.c38_partial` (cqp), `Ledger.c38_submitter_credited` (cqp) |
| C39 | `Cipher.c39_decrypt_encrypt` (cqp), `Cipher.c39_encrypt_decrypt` (cqp), `Cipher.c39_block_length_violated` (qp) |
| C40 | `Cipher.c40_verdict` (cqp), `Cipher.c40_accept_iff` (cqp), `Cipher.c40_forgery` (cqp) |
| C41 | `Ceremony.c41_nonces_partial` (cqp), `Ceremony.c41_no_replay_partial` (cqp), `Ceremony.c41_exhausted` (cqp), `Ceremony.c41_contributed_refused` (qp), `Ceremony.c41_violated` (qp) |
| C42 | `Ceremony.c42_once_partial` (cqp), `Ceremony.c42_all_normal` (cqp), `Ceremony.c42_violated` (qp) |
| C43 | `Ceremony.c43_once_partial` (cqp), `Ceremony.c43_restart_partial` (cqp), `Ceremony.c43_rounds` (qp), `Ceremony.c43_violated` (qp), `Ceremony.c43_restart_violated` (qp) |
| C44 | `Ceremony.c44_exact` (cqp), `Ceremony.c44_unchanged_partial` (cqp), `Ceremony.c44_single_circuit` (cqp), `Ceremony.c44_violated` (cqp), `Ceremony.c44_breaks_transcript` (qp) |
| C45 | `Ceremony.c45_exact` (cqp), `Ceremony.c45_before_round_number` (cqp), `Ceremony.c45_recover_partial` (cqp), `Ceremony.c45_violated` (cqp) |
| C46 | `Ceremony.c46_chain` (qp), `Ceremony.c46_append` (–), `Ceremony.c46_first_error` (qp), `Ceremony.c46_commits` (cqp), `Ceremony.c46_parallel` (qp), `Ceremony.c46_parallel_project` (qp), `Ceremony.c46_parallel_combine` (qp) |
| C47 | `Ceremony.Registry.c47_reload` (cqp), `Ceremony.Registry.c47_register` (p) |
| C48 | `Util.c48_all_unequal_exact` (qp), `Util.c48_all_unequal_nodup` (qp) |
| C49 | `Util.c49_chunk_by` (qp), `Util.c49_chunk_by_fused` (qp), `Util.chunksExact_spec` (cqp), `Util.c49_padded_chunks` (cqp), `Util.c49_padded_chunks_extra_chunk` (cqp), `Util.vecTake_spec` (p) |
| C50 | `Util.MDeque.c50_len` (p), `Util.MDeque.c50_is_empty` (qp), `Util.MDeque.c50_get` (qp), `Util.MDeque.c50_front` (p), `Util.MDeque.c50_pop_front` (p), `Util.MDeque.c50_push_back` (qp), `Util.MDeque.c50_position` (cqp), `Util.MDeque.c50_push_back_if_missing` (cqp), `Util.MDeque.c50_fifo` (cqp), `Util.MDeque.c50_priority` (cqp) |
| C51 | `Transfer.c51_select_iff` (–), `Transfer.c51_unique` (–), `Transfer.c51_from_post` (–), `Transfer.c51_check_shape` (p), `Transfer.c51_new_iff` (cqp) |
| C52 | `Sign.c52_success_partial` (qp), `Sign.c52_failure_partial` (qp), `Sign.c52_violated` (qp) |
| C53 | `Codec.c15_signed_message` (qp) |
| C54 | `Codec.c15_post_encoding_ignores_accounts` (–), `Codec.c15_post_not_injective` (–), `Codec.c54_post_partial` (qp), `Codec.c15_body` (qp) |
| C55 | `Wallet.c55_coins` (cqp) |
| C56 | `Wallet.c56_balances` (cqp), `Wallet.c56_full_agrees` (cqp), `Wallet.c56_pruned_partial` (cqp), `Wallet.c56_behind_violated` (qp) |
| C57 | `Wallet.c57_checkpoint` (cqp), `Wallet.c57_sbt_partial` (cqp), `Wallet.c57_sbt_violated` (qp), `Wallet.c57_failed_violated` (qp) |
| C58 | `Sign.c58_request_partial` (qp), `Sign.c58_consolidate` (cqp), `Sign.c58_refused` (qp), `Sign.c58_zero_first_accepted` (p) |
| C59 | `Ledger.c59_invalid_proof_accepted` (p), `Ledger.c59_partial` (cqp), `Ledger.c59_checked` (cqp) |
| C60 | `Transfer.c60_same_coin_same_nullifier` (cqp), `Transfer.c60_different_coins_different_nullifiers` (cqp), `Transfer.c60_same_coin_same_value` (cqp), `Transfer.c60_created_then_spent` (cqp) |
| C61 | `Transfer.c61_honest_satisfies` (qp), `Transfer.c61_empty_opaque_rejected` (cqp) |
| C62 | `Transfer.c62_signature` (p), `Transfer.c62_derived` (p), `Transfer.c62_post_valid` (qp), `Transfer.c62_accounts_dropped` (qp) |
| C63 | `Transfer.c63_opaque_recovered_partial` (p), `Transfer.c63_transparent_violated` (p), `Transfer.c63_other_partition` (–), `Transfer.c63_check_sound` (cqp), `Transfer.c63_nullifier_opens` (p), `Transfer.c63_published` (–) |
| C64 | `Merkle.c64_partial` (cqp), `Merkle.c64_vec_violated` (p), `Merkle.c64_removed_path` (p), `Merkle.c64_listing` (qp), `Merkle.c64_listing_violated` (p) |
| C65 | `Ledger.c65_no_inflation_partial` (cqp), `Ledger.c65_bounded_partial` (cqp), `Ledger.c65_violated` (p) |
| C66 | `Merkle.c66_contained_proved` (cqp), `Merkle.c66_stays` (cqp), `Merkle.c66_forest` (cqp), `Merkle.c66_forest_stays` (cqp), `Merkle.c66_forked_proved` (cqp), `Merkle.c66_forked_wanted` (cqp), `Merkle.c66_vec_violated` (qp), `Merkle.c66_remove_committed_panics` (cqp), `Merkle.c66_remove_violated` (qp) |
| C67 | `Cipher.c67_incoming_partial` (cqp), `Cipher.c67_light_panics_iff` (cqp), `Cipher.c67_light_violated` (cqp), `Cipher.c67_outgoing_violated` (qp), `Cipher.c67_sender_crashes_receiver` (cqp) |
| C68 | `Cipher.c68_incoming` (cqp), `Cipher.c68_key_injective` (p), `Cipher.c68_incoming_canonical` (cqp), `Cipher.c68_light` (qp), `Cipher.c68_light_injective` (qp), `Cipher.c68_light_canonical` (qp), `Cipher.c68_outgoing` (qp), `Cipher.c68_outgoing_canonical` (qp), `Cipher.c68_kit_correct` (qp), `Cipher.c68_coin_recovered` (qp) |
| C69 | `Cipher.c69_framing_partial` (cqp), `Cipher.c69_framing_violated` (qp) |
| C70 | `Ledger.c70_signed_partial` (cqp), `Ledger.c70_incoming_bound_partial` (qp), `Ledger.c70_mint_notes_violated` (cqp), `Ledger.c70_coin_hidden_violated` (cqp) |
| C71 | `Ceremony.c71_keep_partial` (p), `Ceremony.c71_violated` (qp) |
| C72 | `Ceremony.c72_file_names` (cqp), `Ceremony.c72_special` (cqp) |
| C73 | `Ceremony.c73_message_partial` (cqp), `Ceremony.c73_violated` (cqp) |
| C74 | `Setup.c74_made` (cqp), `Setup.c74_accepted` (cqp), `Setup.c74_ceremony` (cqp) |
| C75 | `Setup.c75_factor_partial` (cqp), `Setup.c75_random_check` (cqp), `Setup.c75_sound_partial` (cqp), `Setup.c75_violated` (cqp) |
| C76 | `Setup.c76_steps_batch` (cqp), `Setup.c76_batch_sound_partial` (cqp), `Setup.c76_intermediate_violated` (cqp) |
| C77 | `Setup.c77_update` (cqp), `Setup.c77_closed_form` (cqp), `Setup.c77_accepted` (cqp) |
| C78 | `Setup.c78_sound` (cqp), `Setup.c78_random_check` (cqp), `Setup.c78_unchecked_proof` (cqp) |
| C79 | `Poseidon.c79_inverse` (cqp), `Poseidon.c79_is_invertible` (cqp) |
| C80 | `Poseidon.c80_square_partial` (cqp), `Poseidon.c80_matmul_check` (qp), `Poseidon.c80_shapes_violated` (cqp), `Poseidon.c80_new` (cqp), `Poseidon.c80_tests` (qp), `Poseidon.c80_tests_square` (qp), `Poseidon.c80_minor` (cqp), `Poseidon.c80_minor_exists` (cqp), `Poseidon.c80_row_major` (qp) |
| C81 | `Poseidon.c81_mds` (cqp) |
| C82 | `Poseidon.c82_derive_partial` (cqp), `Poseidon.c82_chain_partial` (cqp), `Poseidon.c82_generated` (cqp), `Poseidon.c82_violated` (cqp) |
| C83 | `Poseidon.c83_optimized` (cqp), `Poseidon.c83_generated` (cqp), `Poseidon.c83_odd_violated` (cqp) |
| C84 | `Poseidon.c84_spec` (cqp), `Poseidon.c84_bijective` (cqp), `Poseidon.c84_generated` (cqp), `Poseidon.c84_sbox` (cqp), `Poseidon.c84_sbox_bn254` (cqp), `Poseidon.c84_hash` (cqp), `Poseidon.c84_codec` (qp), `Poseidon.c84_no_full_rounds_violated` (cqp) |
| C85 | `Poseidon.c85_next` (cqp), `Poseidon.c85_constants_partial` (cqp), `Poseidon.c85_separation_partial` (qp), `Poseidon.c85_separation_violated` (p), `Poseidon.c85_zero_violated` (qp) |
| C86 | `Ledger.c86_known_root` (cqp), `Ledger.c86_unknown_root` (cqp), `Ledger.c86_signed` (cqp), `Ledger.c86_signature_error` (p) |
| C87 | `Fs.c87_roundtrip_partial` (cqp), `Fs.c87_file_partial` (cqp), `Fs.c87_file_outcome` (cqp), `Fs.c87_format` (qp), `Fs.c87_injective` (cqp), `Fs.c87_file_length` (cqp), `Fs.c87_lost_violated` (cqp) |
| C88 | `Fs.c88_seeds_partial` (p), `Fs.c88_nonce_violated` (p), `Fs.c88_leak_violated` (cqp) |
| C89 | `Fs.c89_blocks_partial` (qp), `Fs.c89_damaged_partial` (cqp), `Fs.c89_wrong_password_partial` (cqp), `Fs.c89_splice_violated` (cqp), `Fs.c89_panic_violated` (cqp) |
| C90 | `Fs.c90_outcomes_partial` (cqp), `Fs.c90_violated` (cqp) |
| C91 | `Transfer.c91_accept_iff` (qp), `Transfer.c91_errors` (qp), `Transfer.c91_complete` (qp), `Transfer.c91_panics` (p), `Transfer.c91_owner_partial` (cqp), `Transfer.c91_forged_violated` (qp), `Transfer.c91_pay_iff` (p), `Transfer.c91_forged_pay_violated` (qp) |
| C92 | `Transfer.c92_sound` (cqp), `Transfer.c92_kind` (qp), `Transfer.c92_complete` (qp), `Transfer.c92_check` (cqp), `Transfer.c92_address` (p) |
| C93 | `Setup.c93_key` (cqp), `Setup.c93_result` (cqp), `Setup.c93_limit_violated` (cqp), `Setup.c93_qap` (cqp), `Setup.c93_inputs` (cqp), `Setup.c93_proof_iff` (cqp), `Setup.c93_complete` (cqp), `Setup.c93_wrong_assignment` (cqp), `Setup.c93_ceremonies` (cqp) |
| C94 | `Sign.c94_exact_partial` (cqp), `Sign.c94_underflow_violated` (cqp), `Sign.c94_zero_violated` (cqp), `Sign.c94_public` (cqp) |
| C95 | `Sign.c95_post` (cqp), `Sign.c95_never_panics` (cqp), `Sign.c95_exact` (p) |
| C96 | `Accounts.c96_paths` (cqp), `Accounts.c96_networks` (cqp), `Accounts.c96_standard` (p), `Accounts.c96_keys_partial` (cqp), `Accounts.c96_indices` (cqp), `Accounts.c96_stable` (qp), `Accounts.c96_same_keys_violated` (qp), `Accounts.c96_limit` (qp) |
| C97 | `Wallet.c97_restored` (–), `Wallet.c97_fresh` (qp), `Wallet.c97_locked` (qp), `Wallet.c97_clone_partial` (cqp), `Wallet.c97_clone_violated` (cqp), `Wallet.c97_clone_recovers` (cqp) |
| C98 | `Wallet.c98_restart` (cqp) |
| C99 | `Wallet.c99_initial` (cqp), `Wallet.c99_panics_iff` (cqp) |
