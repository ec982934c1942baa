{"id": "C01", "title": "Merkle root is a function of the leaf sequence only", "statement": "After any sequence of appends that a full Merkle tree accepts, the published root equals the reference root of the leaf sequence: the digest of a subtree without leaves is the default digest, any other inner digest is the hash of its two children, and the lowest inner layer hashes pairs of leaf digests (missing right leaf = default leaf digest).", "quantifier": "every tree height >= 2, every hash function, every default digest, every sequence of leaf digests up to capacity", "why_tests_cant": "The set of leaf sequences is unbounded and tests compare trees with each other only on small random samples; a wrong digest on one rare carry pattern would go unseen.", "anchors": ["manta-crypto/src/merkle_tree/full.rs:Full", "manta-crypto/src/merkle_tree/inner_tree.rs:InnerTree::insert", "manta-crypto/src/merkle_tree/node.rs:Node"]}
{"id": "C02", "title": "Every membership path handed out verifies", "statement": "For every history of appends and every index below the tree length, the path returned for that index, folded with the leaf digest stored at the index, gives exactly the currently published root; for every nonzero index at or beyond the length the request is refused.", "quantifier": "every height, every append history, every index", "why_tests_cant": "Tests verify a handful of paths of short trees; the claim covers every index after every history including all carry patterns.", "anchors": ["manta-crypto/src/merkle_tree/full.rs:path", "manta-crypto/src/merkle_tree/path.rs:Path::verify", "manta-crypto/src/merkle_tree/inner_tree.rs:path"]}
{"id": "C03", "title": "Appends are refused exactly when the tree is full", "statement": "A tree of height H accepts exactly 2^(H-1) leaves: an append succeeds iff the current length is below capacity, a success adds exactly one to the length and keeps all earlier leaves, and a refused append leaves root, length and leaves unchanged; a bulk append either adds all leaves or none.", "quantifier": "every height, every history, every bulk length", "why_tests_cant": "Real heights (20) give capacities no test fills; boundary at capacity and atomicity at every length need induction.", "anchors": ["manta-crypto/src/merkle_tree/tree.rs:capacity", "manta-crypto/src/merkle_tree/full.rs:maybe_push_digest", "manta-crypto/src/merkle_tree/tree.rs:extend_digests"]}
{"id": "C04", "title": "The constant-space ledger tree agrees with the full tree", "statement": "The single-path tree that a ledger keeps (one leaf, one left-sibling path, one root) has, after every append history, the same length, root and last-leaf path as a tree storing everything, and refuses an append in the same states.", "quantifier": "every height, every append history in which no inner node of the tree is the default digest", "why_tests_cant": "The two implementations share no code for carries; agreement must hold at each of 2^(H-1) lengths.", "anchors": ["manta-crypto/src/merkle_tree/single_path.rs:SinglePath", "manta-crypto/src/merkle_tree/path.rs:CurrentInnerPath::update"]}
{"id": "C05", "title": "A verifying path binds the leaf", "statement": "If two paths with the same index verify two leaf digests against the same root, then either the two leaf digests are equal or the two computations contain an explicit collision of the inner or leaf-layer hash; for collision-free hashes a root and index determine the leaf.", "quantifier": "every height, every pair of paths, leaves and roots", "why_tests_cant": "Absence of a second opening cannot be tested; it is a universally quantified soundness claim over adversarial paths.", "anchors": ["manta-crypto/src/merkle_tree/path.rs:InnerPath::fold", "manta-crypto/src/merkle_tree/path.rs:Path::verify_digest"]}
{"id": "C06", "title": "Pruning never changes the root or proofs still needed", "statement": "In a partially stored tree, after any interleaving of provable and non-provable appends, removals of proofs and prunes, the root and length are those of the plain leaf sequence, and every leaf that was appended as provable and not removed still has a path that verifies against the current root.", "quantifier": "every height, every interleaving of append, mark, remove and prune operations", "why_tests_cant": "Safety of deleting interior digests depends on the whole history; tests prune a few random trees.", "anchors": ["manta-crypto/src/merkle_tree/partial.rs:Partial", "manta-crypto/src/merkle_tree/leaf_map.rs:LeafBTreeMap", "manta-crypto/src/merkle_tree/inner_tree.rs:remove"]}
{"id": "C07", "title": "Batch append equals one-by-one append", "statement": "Appending a list of leaf digests in one batch leaves the tree in a state with the same length, the same leaves, the same root and the same paths as appending them one at a time.", "quantifier": "every height, every starting tree, every batch length and content", "why_tests_cant": "Batch insertion walks the tree level by level with parity-dependent padding; equality must hold for each alignment of start and length.", "anchors": ["manta-crypto/src/merkle_tree/inner_tree.rs:batch_insert", "manta-crypto/src/merkle_tree/node.rs:NodeRange", "manta-crypto/src/merkle_tree/full.rs:batch_push_leaf_digests"]}
{"id": "C08", "title": "Rolling back a fork restores the trunk", "statement": "After any sequence of appends to the branch of a forked tree, resetting the fork makes root, length and paths equal to those of the trunk alone; resetting twice is the same as once, and the trunk is never modified by branch appends.", "quantifier": "every height, every trunk history, every branch history", "why_tests_cant": "Rollback has to be exact for every pending history; a residue would only appear in specific alignments of base and branch.", "anchors": ["manta-crypto/src/merkle_tree/fork.rs:ForkedTree::reset_fork", "manta-crypto/src/merkle_tree/tree.rs:Rollback"]}
{"id": "C09", "title": "A branch computes the root of trunk plus pending leaves", "statement": "While a branch is open the root and paths of the forked tree are those of the plain tree holding the trunk's leaves followed by the branch's leaves; committing the fork produces that plain tree.", "quantifier": "every height, every nonempty trunk, every branch history within capacity", "why_tests_cant": "The branch stores only a window of leaves and a path into the trunk; correctness depends on all alignments.", "anchors": ["manta-crypto/src/merkle_tree/fork.rs:Branch", "manta-crypto/src/merkle_tree/fork.rs:merge_fork"]}
{"id": "C10", "title": "Forest routing is stable and isolated", "statement": "In a Merkle forest each leaf goes to the tree selected by its index function, other trees are untouched, a batch insertion gives every tree exactly the sub-sequence of leaves routed to it in order, and the forest length is the sum of the tree lengths.", "quantifier": "every routing function, every forest width, every history of single and batch insertions", "why_tests_cant": "Width 256 forests with arbitrary routing give too many histories; order preservation per shard must hold for all.", "anchors": ["manta-crypto/src/merkle_tree/forest.rs:MerkleForest", "manta-crypto/src/merkle_tree/forest.rs:TreeArray::sort_items"]}
{"id": "C11", "title": "Compressed and full paths convert without loss", "statement": "Expanding the compressed path of the last leaf (left siblings only) gives back the full path of that leaf, and compressing the full path of the last leaf gives the compressed path, provided no inner node of the tree is the default digest.", "quantifier": "every height, every index, every digest list", "why_tests_cant": "The number of (index, digest) combinations is unbounded and correctness depends on the bit pattern of the index.", "anchors": ["manta-crypto/src/merkle_tree/path.rs:CurrentInnerPath", "manta-crypto/src/merkle_tree/path.rs:TryFrom<InnerPath>"]}
{"id": "C12", "title": "Encoded values decode to themselves and leave the rest of the stream", "statement": "For unsigned integers of every width, booleans, byte arrays, vectors, pairs and assets: decoding the encoding followed by arbitrary bytes returns the value and exactly the trailing bytes.", "quantifier": "every value, every trailing byte string, arbitrarily nested composition", "why_tests_cant": "Input space is unbounded and compositions are recursive; the only way to cover all is induction over the encoder.", "anchors": ["manta-util/src/codec.rs:Encode", "manta-util/src/codec.rs:Decode", "manta-accounting/src/asset.rs:Asset"]}
{"id": "C13", "title": "Optional and fallible values survive encoding", "statement": "Decoding the encoding of an optional value (or of a success/failure value) returns the same value.", "quantifier": "every payload type with a correct codec, every value", "why_tests_cant": "No test in the repository exercises these codecs together; the claim covers every payload.", "anchors": ["manta-util/src/codec.rs:Encode for Option", "manta-util/src/codec.rs:Decode for Option", "manta-util/src/codec.rs:Encode for Result", "manta-util/src/codec.rs:Decode for Result"]}
{"id": "C14", "title": "Byte sinks and sources consume what they report", "statement": "Reading from a byte source advances it by the number of bytes returned and a short source is reported as an error, never as a panic; writing to a byte sink consumes the written bytes from the input so that a caller that repeats until the input is empty terminates with each byte written once.", "quantifier": "every source, every sink, every request length", "why_tests_cant": "Depends on every combination of buffer and request size and on repeated use.", "anchors": ["manta-util/src/codec.rs:Read for &[u8]", "manta-util/src/codec.rs:Read for [u8; N]", "manta-util/src/codec.rs:Write for Vec<u8>", "manta-util/src/codec.rs:Write for [u8; N]"]}
{"id": "C15", "title": "Encodings are unambiguous", "statement": "No encoding of a value is a proper prefix of the encoding of a different value of the same type, so distinct values (and distinct sequences of values) always have distinct encodings.", "quantifier": "every pair of values of: unsigned integers of every width, booleans, unit, pairs, arrays, vectors, options, results and transfer bodies, nested to any depth", "why_tests_cant": "Injectivity over unbounded domains cannot be sampled.", "anchors": ["manta-util/src/codec.rs:Encode"]}
{"id": "C16", "title": "An asset list is a faithful multiset of balances", "statement": "After any history of deposits and withdrawals the list is strictly sorted by asset id with no zero entries, and the reported balance of every id is exactly the sum of accepted deposits minus the sum of accepted withdrawals of that id.", "quantifier": "every history, every asset id", "why_tests_cant": "Histories are unbounded; binary search insertion and removal must keep the order in each of them.", "anchors": ["manta-accounting/src/asset.rs:AssetList"]}
{"id": "C17", "title": "Withdrawals are all-or-nothing", "statement": "A withdrawal succeeds iff the balance of that asset id is at least the requested value (a zero withdrawal always succeeds); on success exactly that value is removed and all other ids are unchanged, on failure nothing changes.", "quantifier": "every balance state and every asset", "why_tests_cant": "Needs all states reachable by arbitrary histories.", "anchors": ["manta-accounting/src/asset.rs:withdraw", "manta-accounting/src/wallet/balance.rs:withdraw"]}
{"id": "C18", "title": "All balance stores agree", "statement": "The sorted-list balance store and the map based balance stores return the same balances and the same success/failure answers on every history of deposits, withdrawals and clears.", "quantifier": "every history of operations", "why_tests_cant": "Differential testing samples; equality for all histories needs a refinement proof.", "anchors": ["manta-accounting/src/wallet/balance.rs:BalanceState", "manta-accounting/src/asset.rs:AssetList"]}
{"id": "C19", "title": "A bulk withdrawal either happens completely or not at all", "statement": "Withdrawing a list of assets in one call either withdraws the total of every id and reports success, or reports failure and leaves all balances unchanged.", "quantifier": "every balance state, every list of assets", "why_tests_cant": "Atomicity must hold at every failing position.", "anchors": ["manta-accounting/src/wallet/balance.rs:withdraw_all"]}
{"id": "C20", "title": "Coin selection is exact", "statement": "The assets returned for a payment are distinct stored coins of the requested asset id and their total equals the requested value plus the reported change.", "quantifier": "every coin map, every requested asset", "why_tests_cant": "Selection depends on the iteration order and the values of all coins.", "anchors": ["manta-accounting/src/asset.rs:AssetMap::select", "manta-accounting/src/asset.rs:Selection"]}
{"id": "C21", "title": "Coin selection finds a payment whenever one exists", "statement": "Selection returns nothing exactly when the requested value is zero or the stored coins of that asset id sum to less than the requested value.", "quantifier": "every coin map, every requested asset", "why_tests_cant": "Completeness over all coin multisets cannot be sampled.", "anchors": ["manta-accounting/src/asset.rs:AssetMap::select"]}
{"id": "C22", "title": "Coin selection prefers exact then smallest covering coin", "statement": "If a coin of exactly the requested value exists the selection is one such coin with no change; otherwise if a larger coin exists the selection is a single coin of minimal larger value; otherwise only smaller coins are used.", "quantifier": "every coin map, every requested asset", "why_tests_cant": "The preference has to hold for each ordering of coins.", "anchors": ["manta-accounting/src/asset.rs:AssetMap::select"]}
{"id": "C23", "title": "The coin map is an exact set of coins per key", "statement": "After any history of insertions and removals a coin is listed under a key iff its last operation was an insertion, no coin is listed twice, and no key is left with an empty list.", "quantifier": "every history", "why_tests_cant": "Unbounded histories with shared keys.", "anchors": ["manta-accounting/src/asset.rs:AssetMap::insert", "manta-accounting/src/asset.rs:AssetMap::remove"]}
{"id": "C24", "title": "Net balance updates are preserved by normalization", "statement": "The deposit and withdraw lists reported after a synchronization, once normalized, mention no asset id in both lists and change every balance by the same net amount as before.", "quantifier": "every pair of deposit and withdraw lists", "why_tests_cant": "The in-place index loop depends on the relation between all entries.", "anchors": ["manta-accounting/src/wallet/signer/functions.rs:normalize_assets"]}
{"id": "C25", "title": "Wallet balances follow the signer", "statement": "A full balance update makes the wallet balances equal to the totals of the reported assets; a partial update changes them by deposits minus withdrawals; on failure the checkpoint is not advanced; on an inconsistency answer the checkpoint never moves forward.", "quantifier": "every wallet state and every signer response", "why_tests_cant": "All combinations of responses and states.", "anchors": ["manta-accounting/src/wallet/mod.rs:process_sync_response"]}
{"id": "C26", "title": "Sync requests are trimmed to exactly the unseen data", "statement": "When the signer is ahead of the request's origin checkpoint, exactly the already processed UTXOs and nullifiers are dropped, so that processing the trimmed request leads to the same state as processing each item once; when it is behind, the request is refused.", "quantifier": "every pair of checkpoints, every data", "why_tests_cant": "Off-by-one in each shard would only show at particular checkpoint pairs.", "anchors": ["manta-accounting/src/wallet/signer/functions.rs:prune_sync_request", "manta-pay/src/signer/mod.rs:Checkpoint"]}
{"id": "C27", "title": "Private transfer batching conserves value and terminates", "statement": "Spending n coins privately folds them pairwise into max(n-1,1) transactions, each of which consumes two coins and creates outputs of the same total value, and the last one carries the whole selected amount.", "quantifier": "every number and value of selected coins", "why_tests_cant": "The loop runs until two coins remain; counts for all n need induction.", "anchors": ["manta-accounting/src/wallet/signer/functions.rs:compute_batched_transactions", "manta-accounting/src/transfer/batch.rs:Join"]}
{"id": "C28", "title": "Withdrawals to public accounts conserve value", "statement": "Reclaiming n private coins to a public account uses ceil(n/2) transactions; the published amounts plus the private change equal the value of the spent coins and the published amounts total the requested value.", "quantifier": "every number and value of selected coins with every change value", "why_tests_cant": "The split of change over transactions depends on all values.", "anchors": ["manta-accounting/src/wallet/signer/functions.rs:compute_to_public_transaction", "manta-accounting/src/wallet/signer/functions.rs:process_to_public_senders"]}
{"id": "C29", "title": "A transfer becomes a post only with matching authorization", "statement": "A transfer with private inputs is turned into a post iff it carries an authorization and the spending key produces a signature, and then the post carries that signature; a transfer without private inputs is turned into an unsigned post iff it has no authorization and no key is supplied.", "quantifier": "every shape, every combination of authorization, key and signature outcome", "why_tests_cant": "Const generic shapes give an unbounded family of cases.", "anchors": ["manta-accounting/src/transfer/mod.rs:Transfer::into_post", "manta-accounting/src/transfer/mod.rs:check_shape"]}
{"id": "C30", "title": "A post passes the authorization check only when signed or when no signature is required", "statement": "Validation of a post succeeds on the authorization step iff it has senders, carries a signature and the signature verifies on its body and sink accounts, or has no senders and carries no signature; the reported error identifies which case failed.", "quantifier": "every post, every verification outcome", "why_tests_cant": "Decision table over all shapes and signature outcomes.", "anchors": ["manta-accounting/src/transfer/mod.rs:has_valid_authorization_signature"]}
{"id": "C31", "title": "Prover, post and ledger agree on the public inputs of a proof", "statement": "The list of public inputs built from a transfer before proving, from the resulting post and from the ledger's posting key are identical for the same transfer.", "quantifier": "every shape and every content", "why_tests_cant": "Order and presence of optional elements vary with the shape.", "anchors": ["manta-accounting/src/transfer/mod.rs:generate_proof_input"]}
{"id": "C32", "title": "The circuit constraints imply value and asset conservation", "statement": "An assignment satisfying the transfer constraints has input total equal to output total and all its secret assets carry one asset id, which is the public id when public participants exist.", "quantifier": "every shape and every satisfying assignment", "why_tests_cant": "Universally quantified soundness statement about all assignments.", "anchors": ["manta-accounting/src/transfer/mod.rs:build_validity_constraints"]}
{"id": "C33", "title": "No double spend over any ledger history", "statement": "For every sequence of pushes a nullifier is recorded at most once, every accepted post's nullifiers were unspent before and pairwise different, and a post reusing a recorded nullifier is rejected without effect.", "quantifier": "every history of submitted posts, valid or not", "why_tests_cant": "Histories are unbounded and adversarial.", "anchors": ["manta-accounting/src/transfer/mod.rs:TransferPost::validate", "manta-pay/src/simulation/ledger/mod.rs:Ledger"]}
{"id": "C34", "title": "No UTXO is registered twice and none is lost", "statement": "For every history the UTXOs of accepted posts are pairwise different, each is in exactly one shard in order of acceptance, and nothing ever removes one.", "quantifier": "every history of submitted posts", "why_tests_cant": "Unbounded adversarial histories.", "anchors": ["manta-pay/src/simulation/ledger/mod.rs:register", "manta-accounting/src/transfer/mod.rs:TransferPost::validate"]}
{"id": "C35", "title": "A validated post always applies", "statement": "If validation of a post succeeds then applying it cannot fail: public balances are sufficient, sink accounts exist and no partial effect is left behind.", "quantifier": "every ledger state, every post accepted by validation", "why_tests_cant": "Needs all states and posts; failure after partial application would corrupt the ledger.", "anchors": ["manta-accounting/src/transfer/mod.rs:TransferPostingKey::post", "manta-pay/src/simulation/ledger/mod.rs:update_public_balances"]}
{"id": "C36", "title": "Public balances change only by the post's amounts", "statement": "Applying a post lowers the sum of public balances of its asset id by sources and raises it by sinks, leaves all other ids and accounts untouched and never makes a balance negative. Setting a public balance from outside is refused for asset id 0 only; otherwise that balance takes the new value and no other balance, nullifier, utxo, shard or tree changes.", "quantifier": "every ledger state and post", "why_tests_cant": "Unbounded states.", "anchors": ["manta-pay/src/simulation/ledger/mod.rs:update_public_balances"]}
{"id": "C37", "title": "Pulling from a checkpoint returns exactly the unseen entries", "statement": "A reader that pulls from its checkpoint and moves to the returned checkpoint sees every registered UTXO of every shard and every nullifier exactly once, in order, however pulls and pushes interleave.", "quantifier": "every interleaving of pushes and pulls", "why_tests_cant": "Interleavings are unbounded.", "anchors": ["manta-pay/src/simulation/ledger/mod.rs:pull", "manta-pay/src/simulation/ledger/mod.rs:initial_read"]}
{"id": "C38", "title": "Public proceeds go only to the accounts that were signed", "statement": "The public accounts credited when a post is accepted are exactly the sink accounts covered by the authorization signature.", "quantifier": "every post and every submitter", "why_tests_cant": "The submitter is adversarial.", "anchors": ["manta-pay/src/simulation/ledger/mod.rs:push", "manta-accounting/src/transfer/mod.rs:check_public_participants"]}
{"id": "C39", "title": "Authenticated note encryption round-trips", "statement": "Decrypting an encryption with the same key and header always reports the tag as valid and returns the plaintext, and re-encrypting any decryption gives back the ciphertext.", "quantifier": "every permutation, key, header, plaintext, message length", "why_tests_cant": "Field elements and permutations are unbounded domains.", "anchors": ["manta-crypto/src/permutation/duplex.rs:Duplexer", "manta-pay/src/crypto/poseidon/encryption.rs:FixedDuplexer"]}
{"id": "C40", "title": "A modified ciphertext is accepted only if tags collide", "statement": "Decryption reports valid exactly when the tag recomputed from the recovered plaintext equals the attached tag; two different ciphertext bodies with the same tag that are both accepted are distinct plaintexts whose encryptions have equal tags.", "quantifier": "every key, header and ciphertext", "why_tests_cant": "Quantifies over all forgeries.", "anchors": ["manta-crypto/src/permutation/duplex.rs:duplex_decryption", "manta-pay/src/crypto/poseidon/encryption.rs:Tag"]}
{"id": "C41", "title": "Ceremony requests cannot be replayed", "statement": "Each accepted request of a participant uses the participant's current nonce, which then strictly increases, so that no signature is accepted twice and nothing is accepted when nonces are exhausted.", "quantifier": "every history of requests by every participant", "why_tests_cant": "Unbounded adversarial request histories.", "anchors": ["manta-trusted-setup/src/groth16/ceremony/coordinator.rs:preprocess_request", "manta-trusted-setup/src/ceremony/signature.rs:Nonce"]}
{"id": "C42", "title": "Nobody waits in the ceremony queue twice", "statement": "At every point of every history of queries, updates and timeouts a participant occurs at most once in waiting queue and lock together.", "quantifier": "every history of requests and every timing", "why_tests_cant": "Depends on interleavings of timeouts and priority changes.", "anchors": ["manta-util/src/collections/vec_deque.rs:MultiVecDeque::push_back_if_missing", "manta-trusted-setup/src/groth16/ceremony/coordinator.rs:LockQueue"]}
{"id": "C43", "title": "A participant contributes at most once", "statement": "No schedule of concurrent requests lets the same participant be counted for two rounds of the ceremony.", "quantifier": "every schedule of the steps of concurrent update requests", "why_tests_cant": "Schedules of the three server locks are not controllable in tests.", "anchors": ["manta-trusted-setup/src/groth16/ceremony/server.rs:update"]}
{"id": "C44", "title": "A rejected contribution leaves the ceremony state unchanged", "statement": "If any circuit of a contribution fails verification, the states, challenges and round number of the ceremony are unchanged.", "quantifier": "every number of circuits and every failing position", "why_tests_cant": "Failing at each position for each count is unbounded.", "anchors": ["manta-trusted-setup/src/groth16/ceremony/coordinator.rs:StateChallengeProof::update"]}
{"id": "C45", "title": "The ceremony can be recovered from any crash point", "statement": "After a crash at any point between file writes of a round, recovery succeeds and yields the state of the last completed or the previous round.", "quantifier": "every crash point, every number of circuits and rounds", "why_tests_cant": "Crash points cannot be enumerated by unit tests.", "anchors": ["manta-trusted-setup/src/groth16/ceremony/coordinator.rs:save", "manta-trusted-setup/src/groth16/ceremony/server.rs:recover"]}
{"id": "C46", "title": "A verified transcript chains every round", "statement": "Verifying a transcript succeeds iff every consecutive transition verifies under the challenge derived from all earlier rounds; verification of a concatenated transcript is verification of the first part followed by the second from its end state.", "quantifier": "every transcript of any length", "why_tests_cant": "Unbounded number of rounds.", "anchors": ["manta-trusted-setup/src/mpc.rs:verify_transform_all", "manta-trusted-setup/src/mpc.rs:Parallel"]}
{"id": "C47", "title": "Reloading the registry never overwrites participants", "statement": "Loading registration records into a live registry keeps every existing entry (nonce, priority, contributed flag) unchanged, adds each new identifier with the first valid record and reports exactly the number of new entries; a single registration succeeds exactly if the identifier is new.", "quantifier": "every registry and every record list", "why_tests_cant": "Unbounded inputs.", "anchors": ["manta-trusted-setup/src/ceremony/registry/csv.rs:load_append_entries", "manta-trusted-setup/src/ceremony/registry/mod.rs:Registry"]}
{"id": "C48", "title": "The duplicate check is exact", "statement": "The pairwise comparison used to reject duplicate nullifiers and UTXOs inside a post accepts iff no two positions hold related elements.", "quantifier": "every list and every relation", "why_tests_cant": "Unbounded lists.", "anchors": ["manta-util/src/vec.rs:all_unequal"]}
{"id": "C49", "title": "Chunking loses and reorders nothing", "statement": "Splitting an iterator into fixed-size chunks yields chunks whose concatenation followed by the remainder is the original sequence, each chunk having the chunk size and the remainder being shorter.", "quantifier": "every sequence, every chunk size > 0", "why_tests_cant": "Unbounded lengths.", "anchors": ["manta-util/src/iter/chunk_by.rs:ChunkBy", "manta-util/src/vec.rs:padded_chunks_with"]}
{"id": "C50", "title": "The priority queue is first-in first-out within each level", "statement": "The multi-level queue behaves like the concatenation of its levels: front, positional access, length and removal refer to that order, a reported position is the number of elements served earlier, and elements of the same level leave in order of arrival.", "quantifier": "every history of insertions and removals", "why_tests_cant": "Unbounded histories.", "anchors": ["manta-util/src/collections/vec_deque.rs:MultiVecDeque"]}
{"id": "C51", "title": "Transaction shapes are recognised exactly", "statement": "The shape of a post is recognised from its counts as mint, private transfer or reclaim iff counts, presence of authorization and presence of a public asset id match the canonical shape, and no post matches two shapes.", "quantifier": "every combination of counts and flags", "why_tests_cant": "Counts are unbounded.", "anchors": ["manta-accounting/src/transfer/canonical.rs:TransferShape::select"]}
{"id": "C52", "title": "Signing does not change the signer's view of the ledger", "statement": "After a signing request the signer's UTXO accumulator is the same as before the request, whether signing succeeds or fails.", "quantifier": "every signer state and every transaction", "why_tests_cant": "Failure paths of every inner step.", "anchors": ["manta-accounting/src/wallet/signer/functions.rs:sign", "manta-accounting/src/wallet/signer/functions.rs:consolidate"]}
{"id": "C53", "title": "A signed transfer message fixes the transfer body and the receiving accounts", "statement": "Two transfers whose authorization messages are equal byte strings have the same body (asset id, sources, sender posts, receiver posts, sinks, proof) and the same list of sink accounts, so a signature can never be moved to another transfer.", "quantifier": "every pair of transfer bodies and account lists, any component codecs that round-trip", "why_tests_cant": "A collision of two encodings is a pair of inputs; tests compare one encoding with itself.", "anchors": ["manta-accounting/src/transfer/mod.rs:TransferPostBody", "manta-accounting/src/transfer/utxo/auth.rs:sign"]}
{"id": "C54", "title": "The encoding of a posted transfer identifies it", "statement": "Two posted transfers with the same byte encoding are equal, including the sink accounts.", "quantifier": "every pair of posted transfers", "why_tests_cant": "The omission only shows for posts that differ in the omitted part.", "anchors": ["manta-accounting/src/transfer/mod.rs:TransferPost"]}
{"id": "C55", "title": "Synchronization keeps exactly the unspent coins, however the ledger is split", "statement": "A signer fed with the ledger's UTXOs and nullifiers in any number of batches ends with exactly the coins it can open whose nullifier has not been published, whether a nullifier arrives before, with or after its UTXO; every UTXO went into its accumulator once and in order; and every coin kept can be proved a member.", "quantifier": "every ledger content, every split into batches, every set of keys", "why_tests_cant": "The splits and the relative positions of UTXO and nullifier are unbounded.", "anchors": ["manta-accounting/src/wallet/signer/functions.rs:sync_with", "manta-accounting/src/wallet/signer/functions.rs:insert_next_item", "manta-accounting/src/wallet/signer/functions.rs:is_asset_unspent"]}
{"id": "C56", "title": "Wallet balances equal the total of unspent coins", "statement": "Starting from a fresh wallet and signer, after every history of synchronizations over honest ledger data each synchronization succeeds and the balance the wallet reports for an asset id is the sum of the coins of that id received and not yet spent; a wallet that is behind its signer also agrees after its next synchronization.", "quantifier": "every history of synchronizations, every asset id", "why_tests_cant": "Balances depend on the whole history; tests run a few steps.", "anchors": ["manta-accounting/src/wallet/mod.rs:Wallet", "manta-accounting/src/wallet/signer/functions.rs:sync"]}
{"id": "C57", "title": "Checkpoints count exactly the processed ledger items", "statement": "After every history of synchronizations wallet and signer hold the same checkpoint; its entry for each shard is the number of UTXOs of that shard processed so far and its other entry the number of nullifiers, so no ledger item is skipped or requested twice.", "quantifier": "every history of synchronizations, every number of shards", "why_tests_cant": "An off-by-some checkpoint only shows later, when an item is skipped.", "anchors": ["manta-pay/src/config/utxo.rs:Checkpoint", "manta-accounting/src/wallet/signer/functions.rs:sync", "manta-accounting/src/wallet/signer/functions.rs:sbt_sync"]}
{"id": "C58", "title": "Consolidation merges exactly the requested coins into one", "statement": "A consolidation request is accepted iff it names at least two different coins held by the signer, all of one asset id and none of value zero; then the posts spend exactly these coins once and the last one pays their whole total back to the signer as a single coin; otherwise the request is refused and nothing changes.", "quantifier": "every request, every set of coins held", "why_tests_cant": "Which requests are admitted depends on all pairs of coins.", "anchors": ["manta-accounting/src/wallet/signer/mod.rs:ConsolidationRequest", "manta-accounting/src/wallet/signer/functions.rs:consolidate"]}
{"id": "C59", "title": "The ledger accepts only posts whose proof is verified", "statement": "A post is accepted by the ledger only if the proof verifier, run on the verifying key of the post's shape and the post's own public input, answers that the proof is valid.", "quantifier": "every ledger state, every post, every verifier outcome", "why_tests_cant": "A test uses proofs that verify, or malformed ones that make the verifier fail; the third outcome needs a well-formed but wrong proof.", "anchors": ["manta-pay/src/simulation/ledger/mod.rs:is_valid"]}
{"id": "C60", "title": "One coin has one nullifier and one value", "statement": "Two proofs that spend the same UTXO publish the same nullifier and spend the same asset, two proofs that spend different UTXOs publish different nullifiers, and the asset spent is the asset with which the UTXO was created; any exception exhibits an explicit collision of a commitment, of the item hash or of the key map.", "quantifier": "every pair of satisfying assignments", "why_tests_cant": "Soundness against all assignments an adversary may choose.", "anchors": ["manta-accounting/src/transfer/utxo/protocol.rs:SpendSecret", "manta-accounting/src/transfer/utxo/protocol.rs:MintSecret"]}
{"id": "C61", "title": "Honestly built transfers satisfy the circuit", "statement": "A balanced transfer of one asset whose spent coins are in the accumulator and whose senders and receivers are derived by the protocol's own functions satisfies all circuit constraints.", "quantifier": "every key, asset, randomness and shape", "why_tests_cant": "Completeness for all values; in particular the boundary between transparent and opaque coins.", "anchors": ["manta-accounting/src/transfer/utxo/protocol.rs:derive_mint", "manta-accounting/src/transfer/utxo/protocol.rs:derive_spend", "manta-accounting/src/transfer/mod.rs:build_validity_constraints"]}
{"id": "C62", "title": "Posts made by the owner pass the signature check", "statement": "A post built from a transfer with an authorization of the signing key passes the authorization check of the ledger, for every key, randomness, body and list of sink accounts.", "quantifier": "every key, randomizer, nonce, body and account list", "why_tests_cant": "Algebraic identity over all scalars.", "anchors": ["manta-crypto/src/signature/schnorr.rs:Schnorr", "manta-accounting/src/transfer/utxo/auth.rs:sign", "manta-accounting/src/transfer/mod.rs:into_post"]}
{"id": "C63", "title": "A coin sent to an address is recovered by its owner and only consistently", "statement": "The owner of the receiving key opens the incoming note of every coin created for it and obtains an identifier and asset that pass the UTXO check and whose nullifier opens; an opening that passes the check commits to exactly that asset and key.", "quantifier": "every key, asset, randomness, transparent and opaque coins", "why_tests_cant": "Round trip through key agreement, encryption and commitment for all values.", "anchors": ["manta-accounting/src/transfer/utxo/protocol.rs:NoteOpen", "manta-accounting/src/transfer/utxo/protocol.rs:utxo_check", "manta-accounting/src/transfer/utxo/protocol.rs:NullifierOpen"]}
{"id": "C64", "title": "A stored leaf never has a stale proof", "statement": "In a partially stored tree every leaf digest the tree still reports is the digest that was appended at that position, and the path answered for it verifies against the current root; a leaf whose proof data was dropped is not reported any more.", "quantifier": "every height, every interleaving of appends, removals and prunes", "why_tests_cant": "Which interior digests are deleted depends on the markings of all leaves below the siblings, over the whole history.", "anchors": ["manta-crypto/src/merkle_tree/partial.rs:remove_path_at_index", "manta-crypto/src/merkle_tree/leaf_map.rs:LeafMap", "manta-crypto/src/merkle_tree/partial.rs:path"]}
{"id": "C66", "title": "What the accumulator contains, it proves", "statement": "An item that a Merkle forest says it contains has a membership proof that verifies against the output for this item; an item inserted provably and not rolled back is contained; withdrawing the proof of an item is answered without failure.", "quantifier": "every history of insertions, removals, prunes, rollbacks and commits, every leaf store and height", "why_tests_cant": "Positions, stored leaves and interior digests live in two trees (base and branch) and are dropped at different moments.", "anchors": ["manta-crypto/src/merkle_tree/forest.rs:prove", "manta-crypto/src/merkle_tree/forest.rs:remove_proof", "manta-crypto/src/merkle_tree/fork.rs:position", "manta-pay/src/signer/base.rs:UtxoAccumulator"]}
{"id": "C65", "title": "No sequence of posts creates value", "statement": "At every moment, for every asset, the public balances of all accounts plus the value of the coins that were created and not spent equal what was put into accounts from outside; so nobody can withdraw more than was deposited.", "quantifier": "every history of deposits and posts, any number of accounts, coins and assets", "why_tests_cant": "A global sum over unbounded histories that relates circuit, nullifiers and accounts; tests see single transfers.", "anchors": ["manta-pay/src/simulation/ledger/mod.rs:push", "manta-accounting/src/transfer/mod.rs:build_validate_circuit", "manta-accounting/src/transfer/utxo/protocol.rs:well_formed_asset"]}
{"id": "C67", "title": "Opening a received note never crashes the wallet", "statement": "Whatever bytes or field elements somebody publishes as the note of a coin, a wallet that tries to open it gets either a note or a refusal, never a panic.", "quantifier": "every key and every ciphertext of the declared sizes", "why_tests_cant": "Adversarial ciphertexts range over all byte strings; tests open honest notes.", "anchors": ["manta-pay/src/config/utxo.rs:IncomingAESConverter", "manta-pay/src/config/utxo.rs:OutgoingAESConverter", "manta-pay/src/config/utxo.rs:IncomingPoseidonEncryption", "manta-crypto/src/permutation/duplex.rs:Duplexer"]}
{"id": "C68", "title": "Note encodings lose nothing", "statement": "Every note (circuit-bound, light and outgoing) with a value of the value type is recovered exactly by opening its encryption; a note that opens is the encoding of what it opens to; with these ciphers the owner of an address recovers every opaque coin sent to it.", "quantifier": "every key, randomness, asset id and value", "why_tests_cant": "Round trip through byte and field encodings for all values of 256 and 128 bits.", "anchors": ["manta-pay/src/config/utxo.rs:IncomingAESConverter", "manta-pay/src/config/utxo.rs:OutgoingAESConverter", "manta-pay/src/config/utxo.rs:IncomingPlaintextDestination", "manta-pay/src/crypto/encryption/aes.rs:FixedNonceAesGcm"]}
{"id": "C69", "title": "Key and header of authenticated encryption cannot be confused", "statement": "Different pairs of key and header are absorbed differently before a message is encrypted.", "quantifier": "every pair of keys and headers of any lengths", "why_tests_cant": "Quantifies over all splits and lengths.", "anchors": ["manta-crypto/src/permutation/duplex.rs:setup", "manta-pay/src/crypto/poseidon/encryption.rs:FixedDuplexer", "manta-util/src/array.rs:padded_chunks_with"]}
{"id": "C70", "title": "The notes published with a coin are the sender's", "statement": "A post whose notes were changed on the way so that the recipient cannot find the coin is not accepted by the ledger.", "quantifier": "every accepted post and every change of its notes", "why_tests_cant": "Needs all posts and all modifications by a relay.", "anchors": ["manta-accounting/src/transfer/utxo/protocol.rs:FullIncomingNote", "manta-accounting/src/transfer/mod.rs:TransferPost::validate", "manta-pay/src/simulation/ledger/mod.rs:push"]}
{"id": "C71", "title": "The ceremony lock is kept for the whole time limit", "statement": "Whoever is given the lock keeps it until they have contributed or the contribution time limit has passed.", "quantifier": "every history of requests and every timing", "why_tests_cant": "Depends on interleavings of slow contributions with lock timeouts.", "anchors": ["manta-trusted-setup/src/groth16/ceremony/coordinator.rs:update_expired_lock", "manta-trusted-setup/src/groth16/ceremony/server.rs:update"]}
{"id": "C72", "title": "Recovery files never share a name", "statement": "The name of a recovery file determines the circuit, the kind of file and the round, and no such file is called like the files holding the round number and the circuit names.", "quantifier": "all circuit names, kinds and rounds", "why_tests_cant": "Unbounded strings and numbers.", "anchors": ["manta-trusted-setup/src/groth16/ceremony/server.rs:filename_format"]}
{"id": "C73", "title": "A registration signature belongs to one pair of accounts", "statement": "The message signed at registration determines the Twitter account and the email address.", "quantifier": "all accounts and addresses", "why_tests_cant": "Needs all pairs of strings.", "anchors": ["manta-trusted-setup/src/groth16/ceremony/config/ppot.rs:Record::parse"]}
{"id": "C74", "title": "Honest phase 2 contributions are accepted", "statement": "A contribution made with nonzero randomness is accepted by everybody, whatever the verifier draws, and multiplies the secret of the proving key; a ceremony of such contributions is accepted step by step and as a whole, and ends with the product of the secrets.", "quantifier": "every proving key, challenge, secret, number of contributors and choice of verifier randomness", "why_tests_cant": "Quantifies over all field elements and all verifier coin flips.", "anchors": ["manta-trusted-setup/src/groth16/mpc.rs:contribute", "manta-trusted-setup/src/groth16/mpc.rs:verify_transform", "manta-trusted-setup/src/groth16/mpc.rs:verify_transform_all", "manta-crypto/src/arkworks/ratio.rs:RatioProof"]}
{"id": "C75", "title": "An accepted phase 2 contribution extends the ceremony", "statement": "If a contribution is accepted, the new proving key is the previous one with its secret multiplied by a factor of which the contributor proved knowledge, so that no contributor can undo the others.", "quantifier": "every proving key, submitted key and proof, and all verifier randomness (up to a negligible part)", "why_tests_cant": "Adversarial inputs.", "anchors": ["manta-trusted-setup/src/groth16/mpc.rs:verify_transform", "manta-trusted-setup/src/groth16/mpc.rs:check_invariants", "manta-crypto/src/arkworks/ratio.rs:verify"]}
{"id": "C76", "title": "Verifying a ceremony at once agrees with verifying it step by step", "statement": "A transcript of states and proofs is accepted as a whole exactly if each of its steps is accepted.", "quantifier": "every transcript of any length", "why_tests_cant": "Unbounded transcripts chosen by an adversary.", "anchors": ["manta-trusted-setup/src/groth16/mpc.rs:verify_transform_all", "manta-trusted-setup/src/mpc.rs:verify_transform_all"]}
{"id": "C77", "title": "The powers-of-tau accumulator holds the powers of the product of all secrets", "statement": "After any number of contributions the accumulator holds exactly the powers of the product of the contributed taus, also multiplied by the products of the alphas and betas, and every honest contribution is accepted.", "quantifier": "every number of contributions, all secrets and sizes, all verifier randomness", "why_tests_cant": "Unbounded number of contributions.", "anchors": ["manta-trusted-setup/src/groth16/kzg.rs:update", "manta-trusted-setup/src/groth16/kzg.rs:verify_transform", "manta-trusted-setup/src/groth16/kzg.rs:Contribution"]}
{"id": "C78", "title": "An accepted powers-of-tau contribution is an honest one", "statement": "If a deserialized contribution is accepted, the accumulator holds the powers of a secret that is the previous one times a nonzero factor proven by the contributor, and nothing else changed.", "quantifier": "every accumulator and proof of the right sizes, all verifier randomness (up to a negligible part)", "why_tests_cant": "Adversarial inputs.", "anchors": ["manta-trusted-setup/src/groth16/kzg.rs:verify_transform", "manta-trusted-setup/src/groth16/kzg.rs:Proof", "manta-trusted-setup/src/util.rs:NonZero", "manta-trusted-setup/src/util.rs:power_pairs"]}
{"id": "C79", "title": "Matrix inversion is exact", "statement": "Inverting a square matrix succeeds exactly if the matrix is invertible, and the result is its two-sided inverse; the test for invertibility answers yes exactly if the determinant is not zero.", "quantifier": "every square matrix of every size over every field", "why_tests_cant": "All matrices; pivoting takes different paths depending on zeros.", "anchors": ["manta-pay/src/crypto/poseidon/matrix.rs:inverse", "manta-pay/src/crypto/poseidon/matrix.rs:upper_triangular", "manta-pay/src/crypto/poseidon/matrix.rs:reduce_to_identity"]}
{"id": "C80", "title": "Matrix operations compute the products and refuse wrong shapes", "statement": "Products of matrices and vectors are the mathematical products whenever the shapes match, and are refused otherwise. Matrices are built exactly from rows of one positive length; the tests for square, identity and symmetric matrices decide; minors and the row-major list have the right entries.", "quantifier": "all matrices and vectors of all shapes", "why_tests_cant": "All shapes and entries.", "anchors": ["manta-pay/src/crypto/poseidon/matrix.rs:matmul", "manta-pay/src/crypto/poseidon/matrix.rs:mul_col_vec", "manta-pay/src/crypto/poseidon/matrix.rs:mul_row_vec_at_left"]}
{"id": "C81", "title": "Generated matrices are MDS", "statement": "The generated matrix exists, is symmetric, and each of its square submatrices is invertible.", "quantifier": "every width and every field of sufficiently large characteristic", "why_tests_cant": "Exponentially many submatrices, all widths.", "anchors": ["manta-pay/src/crypto/poseidon/mds.rs:generate_mds"]}
{"id": "C82", "title": "Sparse factorization computes the same rounds", "statement": "The matrices derived from an MDS matrix multiply to it, and the sparse matrices with their initial matrix compute what the dense matrix computes in any number of partial rounds.", "quantifier": "every invertible matrix with invertible lower right block, every number of rounds, every S-box and state", "why_tests_cant": "All matrices, all numbers of rounds.", "anchors": ["manta-pay/src/crypto/poseidon/mds.rs:derive_mds_matrices", "manta-pay/src/crypto/poseidon/mds.rs:factor_to_sparse_matrixes", "manta-pay/src/crypto/poseidon/mds.rs:SparseMatrix"]}
{"id": "C83", "title": "Preprocessed constants give the same permutation", "statement": "Running Poseidon with the compressed round constants, added after the S-boxes, and the sparse matrices computes the same permutation as the unoptimized schedule.", "quantifier": "every width above one, every even number of full rounds, every number of partial rounds, all keys, S-boxes and states", "why_tests_cant": "Equality of two functions on an infinite family of parameters.", "anchors": ["manta-pay/src/crypto/poseidon/preprocessing.rs:compress_round_constants", "manta-pay/src/crypto/poseidon/mds.rs:factor_to_sparse_matrixes"]}
{"id": "C84", "title": "The Poseidon permutation is a bijection and hashing is its first output", "statement": "A permutation with parameters of the right sizes never panics, computes the rounds of Poseidon in order, and is a bijection of states; a hash is the first element of the permutation of the tagged input; encoded permutations and hashers decode to themselves.", "quantifier": "all parameters of the right sizes, all states and inputs", "why_tests_cant": "Bijectivity quantifies over all pairs of states.", "anchors": ["manta-pay/src/crypto/poseidon/mod.rs:permute", "manta-pay/src/crypto/poseidon/mod.rs:full_round", "manta-pay/src/crypto/poseidon/mod.rs:partial_round", "manta-pay/src/crypto/poseidon/hash.rs:hash_untruncated", "manta-pay/src/crypto/poseidon/hash.rs:hash"]}
{"id": "C85", "title": "Round constants are the self-shrunken register sequence and generation does not get stuck", "statement": "The bit generator outputs the self-shrunken sequence of the 80-bit register with the published recurrence, every output arrives after a bounded number of steps, the constants are the first chunks in range, and different parameters start from different registers.", "quantifier": "all parameters, all numbers of output bits", "why_tests_cant": "Termination of an unbounded loop for all 2^80 states.", "anchors": ["manta-pay/src/crypto/poseidon/lfsr.rs:GrainLFSR", "manta-pay/src/crypto/poseidon/round_constants.rs:generate_lfsr", "manta-pay/src/crypto/poseidon/round_constants.rs:generate_round_constants"]}
{"id": "C86", "title": "A spend counts only against a root of the ledger and with a valid signature", "statement": "After any history, a post takes effect only if every coin it spends is claimed against the empty root or the current root of the coins that earlier posts put into a shard, and only if it is unsigned and spends nothing or carries a signature that verifies over exactly its body and sink accounts; anything else is rejected without effect, and an authorization fault is reported as such.", "quantifier": "every history, every post, every submitter", "why_tests_cant": "Histories and forged roots are adversarial and unbounded.", "anchors": ["manta-pay/src/simulation/ledger/mod.rs:has_matching_utxo_accumulator_output", "manta-accounting/src/transfer/mod.rs:TransferPost::validate", "manta-accounting/src/transfer/mod.rs:has_valid_authorization_signature"]}
{"id": "C87", "title": "A value saved to a file loads back unchanged", "statement": "Every value that is saved with a password loads back as the same value with that password, from whole blocks of the documented size, and different values give different files.", "quantifier": "all serializable types built from integers, strings, options, sequences, tuples, structs, maps and enums; all values; all passwords", "why_tests_cant": "All types and values, in particular all alignments of fields to block boundaries.", "anchors": ["manta-accounting/src/fs/serde.rs:Serializer", "manta-accounting/src/fs/serde.rs:Deserializer", "manta-accounting/src/fs/mod.rs:File::save", "manta-accounting/src/fs/mod.rs:File::load", "forks/cocoon/src/mini.rs:dump", "forks/cocoon/src/mini.rs:parse"]}
{"id": "C88", "title": "No two blocks are encrypted under the same key and nonce", "statement": "The encrypted file never uses a nonce twice with a key, so that two ciphertexts reveal nothing about the relation of their contents.", "quantifier": "all passwords, files and blocks", "why_tests_cant": "Ciphertexts look random in any single test; the relation is between all pairs of blocks.", "anchors": ["forks/cocoon/src/mini.rs:encrypt", "forks/cocoon/src/mini.rs:from_password", "manta-accounting/src/fs/mod.rs:cocoon::File::new"]}
{"id": "C89", "title": "A manipulated file does not load", "statement": "Loading returns only values that were saved as a whole under the password; any other file content is reported as an error.", "quantifier": "all file contents, all passwords, all earlier saves", "why_tests_cant": "The manipulations of a file are unbounded.", "anchors": ["forks/cocoon/src/mini.rs:parse", "manta-accounting/src/fs/mod.rs:cocoon::File::read", "manta-accounting/src/fs/serde.rs:Deserializer"]}
{"id": "C90", "title": "An interrupted save does not lose the stored value", "statement": "At every moment of a save, what is in the file loads as the old or as the new value.", "quantifier": "all values, every point of interruption", "why_tests_cant": "Crashes at every write of every save.", "anchors": ["manta-accounting/src/fs/mod.rs:File::save", "manta-accounting/src/fs/serde.rs:Serializer"]}
{"id": "C91", "title": "An identity proof is accepted only from the owner of the address", "statement": "Verification of an identity proof for a virtual asset, an address and a public account succeeds if the proof was made by the owner of the address for these, and only if its maker has the spending key of the address.", "quantifier": "all keys, assets, addresses, accounts and submitted posts", "why_tests_cant": "Forgeries are chosen by an adversary; tests only present honest proofs and simple variations of them.", "anchors": ["manta-accounting/src/transfer/mod.rs:IdentityProof::identity_verification", "manta-accounting/src/wallet/signer/functions.rs:identity_proof", "manta-accounting/src/wallet/signer/functions.rs:virtual_senders"]}
{"id": "C92", "title": "Transaction data are exactly the owner's coins of a post", "statement": "The data that a signer extracts from a post reconstruct, in order, to coins of the post at the address of the signer, and name the kind of transaction the post is; opaque coins of that address are never missed; and the check of the data against a list of coins succeeds for one address only.", "quantifier": "all posts, keys and coins", "why_tests_cant": "All posts, including those made by others.", "anchors": ["manta-accounting/src/wallet/signer/functions.rs:transaction_data", "manta-accounting/src/transfer/utxo/mod.rs:open_with_check", "manta-accounting/src/transfer/canonical.rs:TransactionData"]}
{"id": "C93", "title": "The key of the trusted setup is a Groth16 key for the circuit", "statement": "From the powers of phase 1 and a circuit, phase 2 starts with exactly the Groth16 key of the circuit; after both phases its secrets are the products of the contributed secrets; proofs made with it from satisfying assignments verify, those from other assignments only for few secret points, and no public input can be cancelled.", "quantifier": "all circuits that fit, all secrets, all numbers of contributions, all assignments", "why_tests_cant": "Correctness for all circuits; a test checks one circuit and cannot see a key that is only wrong for some rows or inputs.", "anchors": ["manta-trusted-setup/src/groth16/mpc.rs:initialize", "manta-trusted-setup/src/groth16/mpc.rs:specialize_to_phase_2", "manta-trusted-setup/src/groth16/mpc.rs:add_dummy_constraints"]}
{"id": "C94", "title": "The estimated number of posts is the number of posts", "statement": "For every asset store and every transaction that can be signed, the estimate of the number of transfer posts equals the number of posts that signing then returns; the estimate never fails.", "quantifier": "all asset stores, transactions and balances", "why_tests_cant": "Counts depend on how coins are selected and joined; a test compares a few.", "anchors": ["manta-accounting/src/wallet/signer/mod.rs:estimate_transferposts", "manta-accounting/src/wallet/signer/functions.rs:sign_internal"]}
{"id": "C95", "title": "Signing with transaction data never fails on own posts", "statement": "Whenever a transaction is signed, the data of every post of the result can be extracted with the key of the signer, so that signing with data returns one record per post and does not panic.", "quantifier": "all transactions, asset stores and keys", "why_tests_cant": "The extraction panics unless an own coin is in a certain place of every post, also of those that join coins.", "anchors": ["manta-accounting/src/wallet/signer/functions.rs:sign_with_transaction_data", "manta-accounting/src/wallet/signer/functions.rs:transaction_data"]}
{"id": "C96", "title": "Different accounts have different keys", "statement": "Creating an account returns a new index, leaves existing accounts unchanged, and the keys of two accounts, or of one account on two networks, are derived along different paths, which are the BIP-44 paths with the registered coin types.", "quantifier": "all seeds, all numbers of accounts, all networks", "why_tests_cant": "Tests use one or two accounts and do not compare keys.", "anchors": ["manta-accounting/src/key.rs:VecAccountMap", "manta-accounting/src/key.rs:AccountTable", "manta-pay/src/key.rs:path_string", "manta-pay/src/key.rs:KeySecret"]}
{"id": "C97", "title": "A stored, unlocked or copied signer continues like the original", "statement": "Storing a signer and restoring it, whether into a new or an existing one, gives back all of its state but the keys; without keys it refuses to synchronize and changes nothing; with them it continues like the original. A copy of a signer continues like the original.", "quantifier": "all states of the signer, all histories, all further requests", "why_tests_cant": "A difference shows only in a later synchronization with a ledger that has moved on.", "anchors": ["manta-accounting/src/wallet/signer/mod.rs:StorageState", "manta-accounting/src/wallet/signer/mod.rs:SignerState", "manta-accounting/src/wallet/signer/functions.rs:sync"]}
{"id": "C98", "title": "A wallet recovers from its signer alone", "statement": "If the wallet loses its state but the signer keeps its own, one synchronization with no data brings back the checkpoint and all balances, and the wallet then follows every further history of the ledger.", "quantifier": "all histories before and after the restart", "why_tests_cant": "The wallet is behind the signer, a state that tests rarely reach; then requests are pruned.", "anchors": ["manta-accounting/src/wallet/mod.rs:restart", "manta-accounting/src/wallet/mod.rs:load_initial_state", "manta-accounting/src/wallet/signer/functions.rs:sync"]}
{"id": "C99", "title": "Initial synchronization skips the past and misses nothing afterwards", "statement": "Synchronizing a new wallet from the list of coins and the number of nullifiers gives the checkpoint of the ledger and no balance; afterwards the balances are exactly the coins that arrive and are not spent. It needs one membership proof per shard and panics otherwise.", "quantifier": "all ledgers, however many answers the list is split into, all later histories", "why_tests_cant": "A wrong checkpoint loses or repeats coins only in later synchronizations.", "anchors": ["manta-accounting/src/wallet/mod.rs:initial_sync", "manta-accounting/src/wallet/signer/functions.rs:initial_sync", "manta-accounting/src/wallet/signer/mod.rs:InitialSyncRequest"]}
{"id": "C100", "title": "An accumulator built from a list and current paths works like the one it copies", "statement": "An accumulator built from all items of a ledger and the membership proof of the last leaf of every tree has the same roots and lengths; after any further insertions, rollbacks, commits and prunes it still has, and it proves every item inserted since. What it says it contains it can prove.", "quantifier": "all lists of items that fit, all later histories, every height and leaf store that marks leaves", "why_tests_cant": "Inner nodes are never computed for the old items; whether the missing ones are ever needed depends on all later positions.", "anchors": ["manta-crypto/src/merkle_tree/partial.rs:from_leaves_and_path_unchecked", "manta-crypto/src/merkle_tree/fork.rs:from_leaves_and_path_unchecked", "manta-crypto/src/merkle_tree/forest.rs:from_items_and_witnesses", "manta-crypto/src/merkle_tree/forest.rs:sort_items"]}
{"id": "C101", "title": "The transcript verifier accepts honest ceremonies and only complete, chained ones", "statement": "The verifier accepts the directory that a ceremony leaves behind, extracts the final keys, and computes for every round the hash that its participant was given. It accepts a directory only if, for every circuit, all contributions are chained up to the last one, the same for all circuits.", "quantifier": "all ceremony histories, with restarts and timeouts; all directories; every round", "why_tests_cant": "Files can be missing, and transcripts broken, in arbitrarily many ways; acceptance has to be characterized.", "anchors": ["manta-trusted-setup/src/bin/groth16_phase2_verifier.rs:verify_ceremony", "manta-trusted-setup/src/bin/groth16_phase2_verifier.rs:contribution_hashes", "manta-trusted-setup/src/groth16/mpc.rs:verify_transform", "manta-trusted-setup/src/groth16/ceremony/config/ppot.rs:contribution_hash"]}
{"id": "C102", "title": "An honest ceremony client gets its contribution in and tells the truth about it", "statement": "A client that is given its turn and contributes within the time limit has its contribution accepted as the next round, whatever others do. A client that reports a round contributed exactly that round, one that reports a failure did not contribute, and no participant contributes twice. The client is refused because of its nonce at most once for every start of the client or of the coordinator.", "quantifier": "all interleavings of one client with requests of others, later steps of contributions, reloads and restarts; all registry nonces", "why_tests_cant": "Client and coordinator are concurrent programs that keep separate copies of the nonce and of the state; tests run few interleavings.", "anchors": ["manta-trusted-setup/src/groth16/ceremony/client.rs:contribute", "manta-trusted-setup/src/groth16/ceremony/client.rs:try_contribute", "manta-trusted-setup/src/groth16/ceremony/client.rs:update_nonce", "manta-trusted-setup/src/groth16/ceremony/server.rs:start", "manta-trusted-setup/src/groth16/ceremony/server.rs:update"]}
{"id": "C103", "title": "Scalar multiplication is the same natively and in circuits, by windows and by tables", "statement": "Multiplying a point by windows of any size, by tables of precomputed multiples or bit by bit inside of a circuit gives the multiple that the scalar names; scalars taken from the smaller field into the circuit, and hashes used as scalars, give the same point as the native code.", "quantifier": "all window sizes, bit lists of every length, points, scalars of the field, moduli of all sizes", "why_tests_cant": "Chunk boundaries, remainders and the bits between the two moduli are met by few random scalars.", "anchors": ["manta-crypto/src/algebra/mod.rs:Window", "manta-crypto/src/algebra/mod.rs:PrecomputedBaseTable", "manta-crypto/src/eclair/bool.rs:select_from_table", "manta-crypto/src/arkworks/algebra.rs:fixed_base_scalar_mul", "manta-crypto/src/arkworks/algebra.rs:lift_embedded_scalar", "manta-pay/src/config/utxo.rs:ViewingKeyDerivationFunction"]}
{"id": "C104", "title": "Circuits over unsigned integers compute with natural numbers", "statement": "A circuit that allocates, adds, multiplies, selects, swaps, compares and asserts unsigned integers and booleans is satisfiable with given contents of its variables exactly when the same computation with natural numbers, in which nothing exceeds the width, has these contents. A range assertion accepts exactly the numbers below the bound, whatever a prover assigns to the auxiliary variables.", "quantifier": "all circuits built from these operations, all assignments of all variables, all primes and widths", "why_tests_cant": "A dishonest prover chooses the values of the witnesses; tests only run the honest assignment.", "anchors": ["manta-crypto/src/eclair/num.rs:UnsignedInteger", "manta-crypto/src/arkworks/constraint/mod.rs:assert_within_range", "manta-crypto/src/arkworks/constraint/mod.rs:R1CS", "manta-pay/src/config/utxo.rs:AssetValueVar"]}
{"id": "C105", "title": "Reduction modulo another prime gives the remainder", "statement": "The native reduction of a field element modulo the order of the embedded group is the remainder of its canonical representative, and the gadget for it can be satisfied with that remainder and with nothing else.", "quantifier": "all field elements, all pairs of primes, all assignments", "why_tests_cant": "Only a prover that does not run the honest code can show a missing constraint.", "anchors": ["manta-crypto/src/arkworks/constraint/mod.rs:Rem", "manta-crypto/src/arkworks/constraint/mod.rs:div_rem_mod_prime", "manta-crypto/src/arkworks/constraint/mod.rs:rem_mod_prime"]}
{"id": "C106", "title": "Encodings of the points of the powers of tau identify the points", "statement": "In the format of the powers of tau every point of a curve is read back from its compressed and, if it belongs to the group, from its uncompressed encoding, whatever bytes follow; different points have different encodings of the announced size; the reader consumes exactly one encoding and the checked readers only return points of the group.", "quantifier": "all points, all byte strings and ways a reader can deliver them, all curves whose field leaves two bits of 32 bytes", "why_tests_cant": "The choice of the root by comparison, the byte order of the extension field and the flag bits are met by few random points.", "anchors": ["manta-trusted-setup/src/groth16/ppot/serialization.rs:PpotSerializer", "manta-trusted-setup/src/util.rs:Serializer", "manta-trusted-setup/src/util.rs:Deserializer"]}
{"id": "C107", "title": "Accumulators, proofs and ceremony files are read back correctly", "statement": "An accumulator or proof of a first phase is read back from its bytes; a file of the original ceremony gives the accumulator of every smaller ceremony, consisting of its first powers, and a response file gives its proof; whatever is accepted has the right size and consists of points of the groups, and invalid files give errors.", "quantifier": "all accumulators, proofs, headers, trailing bytes, numbers of powers up to that of the file, both compressions", "why_tests_cant": "The real files have 97 gigabytes; no test reads more than their beginning.", "anchors": ["manta-trusted-setup/src/groth16/ppot/serialization.rs:calculate_mmap_position", "manta-trusted-setup/src/groth16/ppot/serialization.rs:read_subaccumulator", "manta-trusted-setup/src/groth16/ppot/serialization.rs:read_kzg_proof", "manta-trusted-setup/src/groth16/kzg.rs:Accumulator", "manta-trusted-setup/src/groth16/kzg.rs:Proof"]}
{"id": "C108", "title": "Hashing to the second group returns points of the group and binds all of its inputs", "statement": "The hash of a domain tag, a challenge and two points is a point of the group other than the identity and does not depend on how long one waits for it. Different inputs are given to Blake as different strings; exactly the first half of the digest becomes the seed. Coordinates are the first candidates below the modulus, every field element comes from equally many candidates, and every point of the curve is the candidate of its coordinate and one sign.", "quantifier": "all tags, challenges of one length, points, digests, sequences of random words, odd moduli", "why_tests_cant": "The test compares a single file of the original ceremony; uniformity, rejection and the absence of collisions are statements about all words.", "anchors": ["manta-trusted-setup/src/groth16/ppot/hashing.rs:PpotHasher", "manta-trusted-setup/src/groth16/ppot/hashing.rs:Sample", "manta-trusted-setup/src/util.rs:hash_to_group"]}
{"id": "C109", "title": "The serializer over the arkworks encodings reads what it writes", "statement": "A point written in one of the three forms is read back in the same form, whatever bytes follow, and the two checked readers only return valid points.", "quantifier": "all points, all encodings with the documented laws", "why_tests_cant": "The type is generic and no test uses it.", "anchors": ["manta-trusted-setup/src/groth16/ppot/serialization.rs:ArkworksSerialization", "manta-trusted-setup/src/util.rs:Deserializer"]}
{"id": "C110", "title": "The first powers of a ceremony are a ceremony", "statement": "Taking the first powers commutes with contributing, for all accumulators. A contribution to the large ceremony is accepted by every smaller one with its original proof and challenge; the smaller verification accepts exactly if the large one does with coefficients that are zero behind the first powers. Replaying a ceremony with fewer powers leads to the beginning of its result.", "quantifier": "all sizes, accumulators, contributions, proofs, challenges, hashes and random coefficients", "why_tests_cant": "Tests use one pair of sizes and one contribution of the original ceremony.", "anchors": ["manta-trusted-setup/src/groth16/kzg.rs:cast_to_subceremony", "manta-trusted-setup/src/groth16/kzg.rs:update", "manta-trusted-setup/src/groth16/kzg.rs:verify_transform", "manta-trusted-setup/src/groth16/ppot/serialization.rs:read_subaccumulator"]}
{"id": "C111", "title": "A payment changes exactly the balances it should", "statement": "A wallet posts a private transfer or withdrawal if its synchronized balance covers it, and otherwise reports the missing asset without signing anything. Nothing changes until the ledger reports the posts, so a post may be repeated. Once the ledger reports them, in any portions and mixed with any other traffic, synchronization succeeds, the balance of the sender has fallen by the amount plus nothing else, that of the payee has risen by it, minting raises it, consolidating keeps it, and the wallet is again ready. The wallet stays consistent when a call fails.", "quantifier": "every wallet history, every set of coins, every request, every way the ledger can portion and mix the data", "why_tests_cant": "Needs wallet, signer and ledger data together, any number of coins and any interleaving with others.", "anchors": ["manta-accounting/src/wallet/mod.rs:post", "manta-accounting/src/wallet/mod.rs:post_consolidation", "manta-accounting/src/wallet/mod.rs:check", "manta-accounting/src/wallet/mod.rs:sync", "manta-accounting/src/transfer/canonical.rs:check", "manta-accounting/src/wallet/signer/functions.rs:sign", "manta-accounting/src/wallet/signer/functions.rs:sync"]}
{"id": "C112", "title": "The ledger accepts what an up-to-date wallet mints, pays and consolidates", "statement": "A wallet whose view of the coins equals the ledger's and whose coins are unspent there gets a signed request accepted: the ledger takes all posts of it in order, adds exactly the new coins and nullifiers, and changes public balances exactly by the amounts of the request. This holds for minting, private transfers and consolidations of any size.", "quantifier": "every signer, every ledger state, every request the balance covers, any number of coins and posts, all primitives with the documented laws", "why_tests_cant": "Needs signer, circuit, proofs and ledger together; tests use one random schedule and simply retry or ignore rejected posts.", "anchors": ["manta-accounting/src/wallet/signer/functions.rs:sign", "manta-accounting/src/wallet/signer/functions.rs:build_post", "manta-accounting/src/transfer/canonical.rs:PrivateTransfer", "manta-accounting/src/transfer/mod.rs:into_post", "manta-pay/src/simulation/ledger/mod.rs:push", "manta-pay/src/simulation/ledger/mod.rs:has_matching_utxo_accumulator_output"]}
{"id": "C113", "title": "The signer's Merkle forest is a faithful accumulator", "statement": "The forest of forked trees that a wallet keeps, after any history of provable insertions, other insertions one by one or by the batches that synchronization uses, removals of proofs, prunes, rollbacks and commits, has what signing relies on: an insertion succeeds exactly if the shard has room and appends the leaf to its shard as on the ledger; an inserted leaf can be proved at once and every leaf that could be proved still can; the proof of a contained leaf verifies for the root the ledger computes from the same leaves; a rollback undoes all insertions since the last commit; and every committed coin that was inserted as provable is contained. So private transfers of such a wallet settle without any assumption on the accumulator, and after any sequence of synchronizations the forest has every received coin that was not spent.", "quantifier": "all histories without an inner node that is the default digest, hash functions, heights, shard functions, contents", "why_tests_cant": "Laws over all histories of a forest of 256 trees, each split in a base and a branch.", "anchors": ["manta-pay/src/signer/base.rs:UtxoAccumulator", "manta-crypto/src/merkle_tree/forest.rs:Accumulator", "manta-crypto/src/merkle_tree/fork.rs:ForkedTree", "manta-crypto/src/merkle_tree/partial.rs:Partial", "manta-accounting/src/wallet/signer/functions.rs:sign", "manta-accounting/src/wallet/signer/functions.rs:sync_with"]}
{"id": "C114", "title": "The ledger accepts what an up-to-date wallet withdraws", "statement": "A wallet whose view of the coins equals the ledger's and whose coins are unspent there can withdraw any amount its balance covers: the ledger takes all posts of the request in order and the account receives exactly the amount.", "quantifier": "every signer, every ledger state, every amount the balance covers, any number of coins and posts", "why_tests_cant": "Whether a later post of a request is still valid after an earlier one depends on shards and on the number of coins; tests retry.", "anchors": ["manta-accounting/src/wallet/signer/functions.rs:compute_to_public_transaction", "manta-accounting/src/wallet/signer/functions.rs:build_post", "manta-accounting/src/transfer/canonical.rs:ToPublic", "manta-pay/src/simulation/ledger/mod.rs:push", "manta-pay/src/simulation/ledger/mod.rs:has_matching_utxo_accumulator_output"]}
{"id": "C115", "title": "Downloaded parameters are the published ones", "statement": "A download that reports success leaves a file with the expected checksum; valid files are kept without any request; other files are never touched; proving contexts are only decoded from such files. If the servers deliver the published data, a download succeeds and repairs whatever was there before.", "quantifier": "all contents of the disk, all answers of the servers including broken transfers, any number of attempts", "why_tests_cant": "Tests download into an empty directory, and only by hand.", "anchors": ["manta-parameters/src/lib.rs:download", "manta-parameters/src/lib.rs:download_if_invalid", "manta-parameters/src/lib.rs:verify_file", "manta-pay/src/parameters.rs:load_proving_context", "manta-pay/src/parameters.rs:try_load_proving_context"]}
{"id": "C116", "title": "The library embeds what its list of checksums says", "statement": "The build succeeds exactly if the list is well formed and every data file of the repository is listed, the local ones with their own hash. Then loading an embedded file returns the file of the repository, and a downloadable file is compared with the listed checksum. Lists written by the hashing tool are read as they are meant.", "quantifier": "all repositories, lists, orders of the walk and leftovers of former builds", "why_tests_cant": "The build runs on one repository.", "anchors": ["manta-parameters/build.rs:main", "manta-parameters/build.rs:parse_checkfile", "manta-parameters/build.rs:compile_local_binary_file", "manta-parameters/build.rs:compile_lfs", "manta-parameters/src/lib.rs:Get"]}
{"id": "C117", "title": "The round numbers of the hash are the cheapest secure ones", "statement": "The search for round numbers returns, for every arity, the secure numbers with the fewest S-boxes after adding the margin, and the fewest full rounds among those; the result and its strengthened form are secure. The configurations used by the payment protocol are the recommended ones.", "quantifier": "all arities and security conditions", "why_tests_cant": "Tests compare 19 arities, and the comparison with the configurations is commented out.", "anchors": ["manta-pay/src/crypto/poseidon/constants.rs:from_arity", "manta-pay/src/crypto/poseidon/constants.rs:are_secure", "manta-pay/src/crypto/poseidon/constants.rs:strengthened", "manta-pay/src/config/poseidon.rs:Spec"]}
{"id": "C118", "title": "Selecting from iterators in parallel loses nothing and ends", "statement": "An iterator over several iterators that run in a thread pool returns the items of each in their order, none twice, and ends exactly when all of them were returned; it neither blocks forever nor runs forever.", "quantifier": "all numbers and lengths of iterators, all schedules, all pool sizes", "why_tests_cant": "Depends on the interleaving of consumer, queue and tasks, and on the number of threads.", "anchors": ["manta-util/src/iter/select_all.rs:SelectAll", "manta-util/src/iter/mod.rs:select_all"]}
{"id": "C119", "title": "A request to a remote signer gets the answer to that request", "statement": "A wallet connected to a signer over WebSocket or HTTP gets, for every request that does not fail, the signer's answer to that very request, whatever happened on the connection before; over HTTP every request carries the network that was selected last.", "quantifier": "all sequences of requests, all servers that answer in order, all positions of control frames, dropped requests and changes of the network", "why_tests_cant": "Needs a ping or a cancelled request in the middle of a session; tests use an in-process signer.", "anchors": ["manta-pay/src/signer/client/websocket.rs:Client::send", "manta-pay/src/signer/client/http.rs:Client::wrap_request", "manta-pay/src/signer/client/network.rs:NetworkSpecific"]}
{"id": "C120", "title": "The compiled transfer circuit accepts exactly the inputs of valid transfers", "statement": "For every shape with participants on both sides, the constraint system that keys are generated for can be satisfied with given public inputs if and only if these are the public inputs of a well-typed transfer of that shape which passes the native checks (openings, memberships, nullifiers, notes, authorization, equal sums, equal ids). Compiling panics exactly for shapes with an empty side. In particular every satisfying assignment, whatever the prover put into the witness, conserves value over the integers.", "quantifier": "all shapes, all parameters that their constructors accept, all public inputs, all assignments of the variables", "why_tests_cant": "A test proves honest transfers and a few mutations; the prover is free to choose every witness variable, over a field of 254 bits.", "anchors": ["manta-accounting/src/transfer/mod.rs:build_validity_constraints", "manta-accounting/src/transfer/mod.rs:unknown_constraints", "manta-accounting/src/transfer/utxo/protocol.rs:well_formed_asset", "manta-pay/src/config/utxo.rs", "manta-pay/src/crypto/poseidon/mod.rs", "manta-crypto/src/merkle_tree/path.rs:PathVar", "manta-crypto/src/permutation/duplex.rs"]}
{"id": "C121", "title": "Proofs are made for the constraint system the keys were made for", "statement": "The constraint system built from a concrete transfer has the same constraints, variables and public inputs as the one built from its shape alone, so keys and proofs fit together.", "quantifier": "all transfers that fit the parameters, all shapes", "why_tests_cant": "A mismatch depends on the data of the transfer; a test sees the transfers it builds.", "anchors": ["manta-accounting/src/transfer/mod.rs:known_constraints", "manta-accounting/src/transfer/mod.rs:unknown_constraints", "manta-accounting/src/transfer/mod.rs:new_known"]}
{"id": "C122", "title": "Hash, encryption and Merkle gadgets compute the native functions", "statement": "In a constraint system, hashing with Poseidon, encrypting a note and verifying a Merkle path add no public inputs and never panic; whatever satisfies the constraints, the result has the value of the native function on the values of the arguments, and every satisfying assignment from before can be extended. For hashing this needs the domain tag of the hasher to be the one of its type.", "quantifier": "all numbers of inputs, all round constants and matrices, all earlier constraint systems, all assignments", "why_tests_cant": "Soundness of a gadget is a statement about all assignments a cheating prover can choose.", "anchors": ["manta-pay/src/crypto/poseidon/hash.rs", "manta-pay/src/crypto/poseidon/encryption.rs", "manta-crypto/src/merkle_tree/path.rs:PathVar", "manta-crypto/src/permutation/sponge.rs"]}
{"id": "C123", "title": "A satisfied circuit backs the post", "statement": "If the public inputs of a post satisfy the compiled circuit of its shape, there is a transfer that passes the native checks and has exactly the public data of the post: id, sources, sinks, roots, nullifiers, UTXOs, incoming notes and authorization key. So every post that the ledger accepts with a sound verifier is backed by such a transfer.", "quantifier": "all posts whose parts have their types' ranges, all canonical shapes, all ledger states", "why_tests_cant": "Two different posts with the same encoding as field elements would break it, and tests cannot search for them.", "anchors": ["manta-accounting/src/transfer/mod.rs:generate_proof_input", "manta-accounting/src/transfer/canonical.rs:Shape", "manta-pay/src/simulation/ledger/mod.rs:is_valid"]}
{"id": "C124", "title": "Processing registrations registers exactly the signed ones", "statement": "Processing files of raw registrations, any number of times, and loading the result yields a registry with exactly the keys for which some row has a valid signature, each as a participant who has not contributed; the priority is the one the coordinators' list gave when the key was first processed, never the one in the row; every row ends in exactly one of the two output files and is counted there.", "quantifier": "all raw files, all lists of priorities, all sequences of runs, all signature schemes, all drawn nonces", "why_tests_cant": "The interplay of repeated runs, files that are appended to and the loader's first-entry rule; a test processes one file once.", "anchors": ["manta-trusted-setup/src/groth16/ceremony/config/ppot.rs:extract_registry", "manta-trusted-setup/src/groth16/ceremony/config/ppot.rs:set_header", "manta-trusted-setup/src/groth16/ceremony/config/ppot.rs:Record::parse", "manta-trusted-setup/src/ceremony/registry/csv.rs:append_only_csv_writer", "manta-trusted-setup/src/ceremony/registry/csv.rs:load"]}
{"id": "C125", "title": "A prepared ceremony starts at its first round", "statement": "After the preparation of a ceremony the coordinator starts in round zero with the initial state and challenge of every circuit and an empty registry, and everything proved about recovery and about the transcript applies to it; an interrupted preparation does not start. The directory may have been used before.", "quantifier": "all circuits with different names, all initial states, all earlier contents of the directory, all points of interruption", "why_tests_cant": "Depends on what is left in the directory and on where the process is killed.", "anchors": ["manta-trusted-setup/src/groth16/ceremony/coordinator.rs:prepare", "manta-trusted-setup/src/groth16/ceremony/coordinator.rs:initialize", "manta-trusted-setup/src/groth16/ceremony/server.rs:recover"]}
{"id": "C126", "title": "A password container opens to exactly what was put in", "statement": "What is wrapped, dumped or encrypted with a password comes out unchanged by unwrapping, parsing or decrypting with it, whatever follows the container, for both ciphers and both strengths of key derivation. A byte string that opens begins, bit for bit including its header, with a container made with that password, or contains a forgery of the cipher. A container has the documented layout, and its key the documented number of iterations. All ways of opening agree, a failure leaves the data alone, no input makes it crash, and no two containers share salt and nonce.", "quantifier": "all data, passwords, configurations, generators, all byte strings presented as containers", "why_tests_cant": "Ranges over all damaged or crafted containers, including those with lengths near the limits of the machine; tests flip one byte.", "anchors": ["forks/cocoon/src/lib.rs:wrap", "forks/cocoon/src/lib.rs:unwrap", "forks/cocoon/src/lib.rs:dump", "forks/cocoon/src/lib.rs:parse", "forks/cocoon/src/lib.rs:encrypt", "forks/cocoon/src/lib.rs:decrypt", "forks/cocoon/src/header.rs:deserialize", "forks/cocoon/src/format.rs:FormatPrefix", "forks/cocoon/src/mini.rs:unwrap"]}
{"id": "C127", "title": "From constraints to histories: value is only created by breaking a hash", "statement": "Start with an empty ledger of the pay configuration and let anybody post anything, with deposits in between. If the verifier fails on every statement that does not satisfy the compiled circuit of its shape, there are transfers behind all accepted posts, and for every choice of them that exhibits no collision among the commitments, keys, items and tree nodes hashed in the history, and no preimage of the default digest, public balances and unspent coins of every asset are together what was deposited. So if accounts ever hold more than was deposited, every extraction of witnesses exhibits a broken hash.", "quantifier": "all histories of submissions and deposits, all extractions of witnesses, all assets, all parameters of the hashes and trees", "why_tests_cant": "Nobody can test all sequences of posts by all cheating provers; the property composes circuit, proof system interface, Merkle trees and ledger.", "anchors": ["manta-pay/src/simulation/ledger/mod.rs:push", "manta-accounting/src/transfer/mod.rs:build_validity_constraints", "manta-pay/src/config/utxo.rs", "manta-crypto/src/merkle_tree/path.rs:verify"]}
{"id": "C128", "title": "No identifier is drawn twice", "statement": "Over the whole life of a wallet (synchronizations, signing, posting, consolidations, restarts, in any order and with any outcomes, failures included), no two new coins or dummy inputs in everything it hands out are made from the same draw of the random generator; so if the generator does not repeat itself, no two of them share an identifier, and no two coins of a request their randomness.", "quantifier": "all sequences of uses of a wallet, all data read from the ledger, all requests, all outcomes", "why_tests_cant": "Two coins with the same identifier would have the same nullifier and one of them would be lost; failed requests in between decide where the generator stands, and tests sign one request.", "anchors": ["manta-accounting/src/wallet/signer/functions.rs:sign_internal", "manta-accounting/src/wallet/signer/functions.rs:build_receiver", "manta-accounting/src/wallet/signer/mod.rs:SignerState::rng", "manta-accounting/src/wallet/mod.rs:post"]}
{"id": "C129", "title": "The coins of a request belong to whom the request says", "statement": "If a payment is signed, every transfer of it is published. The last new coin is opened by every viewing key of the requested address, as exactly the amount requested, and by no other key unless two commitments collide; all other new coins are opened by the signer's own viewing key, as the same asset, and by no other. What is minted, consolidated or left over from a withdrawal opens for the signer, a minted coin as what was minted, a consolidated one as the sum of the request.", "quantifier": "all signers, requests, addresses and viewing keys, all schemes for encryption and commitment that decrypt what they encrypt", "why_tests_cant": "Ranges over all keys that might try to open a coin, and over batches of any length.", "anchors": ["manta-accounting/src/wallet/signer/functions.rs:sign_internal", "manta-accounting/src/wallet/signer/functions.rs:build_receiver", "manta-accounting/src/wallet/signer/functions.rs:receiver", "manta-accounting/src/transfer/utxo/protocol.rs:open_with_check", "manta-accounting/src/transfer/mod.rs:into_post"]}
{"id": "C130", "title": "Keys and proofs are read back, and used for the right circuit", "statement": "The proving and verifying contexts of all transfer shapes hold for every shape the two halves of one pair generated for it. Written in any format, by serialization or encoding, and followed by anything, they are read back exactly, as are proofs, points and field elements; sizes are as announced, a truncated file is an error, and errors of writers and readers are reported. What is decoded is valid, a byte string is accepted only if it is the encoding of what is decoded, and a verifying context that is read consists of values belonging to its key.", "quantifier": "all keys, proofs and values, all formats, all readers and writers, all truncations and continuations", "why_tests_cant": "Tests write and read one key in memory; they do not range over truncated or extended files, failing devices and manipulated keys.", "anchors": ["manta-crypto/src/arkworks/groth16.rs:VerifyingContext", "manta-crypto/src/arkworks/groth16.rs:ProvingContext", "manta-crypto/src/arkworks/groth16.rs:Proof", "manta-crypto/src/arkworks/serialize.rs:ArkReader", "manta-crypto/src/arkworks/serialize.rs:ArkWriter", "manta-crypto/src/arkworks/pairing.rs:G2PreparedRef", "manta-accounting/src/transfer/canonical.rs:MultiVerifyingContext", "manta-accounting/src/transfer/canonical.rs:generate_context", "manta-accounting/src/transfer/canonical.rs:select"]}
{"id": "C131", "title": "Many wallets on one ledger keep one account book", "statement": "Let any number of wallets share a ledger and, in any order, read some or all of it, mint, pay each other, themselves or strangers, withdraw to any account, consolidate, and be restarted, while the ledger accepts any number of the first posts of each request. Then at every moment the unspent coins of every wallet and the funds of every account are exactly what an ordinary account book says in which a minted amount moves from account to owner, a payment from payer to payee once its last post is accepted, a withdrawal as far as it is accepted, and nothing else moves anything. No entry ever overdraws. A wallet that reads everything succeeds and reports its entry; requests for an asset id other than zero are answered with posts if the entry covers them and are refused for lack of balance otherwise. If payments and withdrawals stay among some wallets, their private and public balances together never change, which is what the simulation measures.", "quantifier": "all numbers of wallets, all interleavings of their actions, all amounts, assets, addresses and accounts, all partial acceptances and orders of reading, as long as trees, values and random streams suffice", "why_tests_cant": "The simulation compares sums for one random run of a few wallets; it covers neither interleavings with partly accepted requests nor the balances of the individual wallets.", "anchors": ["manta-accounting/src/wallet/test/mod.rs:measure_balances", "manta-accounting/src/wallet/test/mod.rs:Config::run", "manta-accounting/src/wallet/mod.rs:sync", "manta-accounting/src/wallet/mod.rs:post", "manta-accounting/src/wallet/mod.rs:post_consolidation", "manta-accounting/src/wallet/signer/functions.rs:sign_internal", "manta-pay/src/simulation/ledger/mod.rs:push"]}
{"id": "C132", "title": "Wallets with real trees on the simulation ledger keep one account book", "statement": "Let any number of wallets, each with its own keys, random stream and forest of Merkle trees, be connected to one simulation ledger and do anything in any order: synchronize, mint, pay, withdraw, consolidate, restart. Every synchronization reads from the wallet's own checkpoint, every request is pushed to the ledger, which applies its posts until it rejects one. Then at every moment the unspent coins that a wallet could open in the ledger's shards, and the ledger's public balances, are exactly what an ordinary account book says; no entry ever overdraws; synchronizing succeeds and reports the entry. A payment or a consolidation that the entry covers, a deposit that the account covers, and a withdrawal of one post to an existing account are accepted completely. A simulation is set up without failure, and its final assertion about the sum of balances holds whatever its actors do among themselves.", "quantifier": "all numbers of wallets, all interleavings of their actions, all amounts, assets, addresses, keys and random streams, all starting balances, as long as trees, values and random streams suffice and no two different coins of the history hash alike", "why_tests_cant": "A simulation is one random run; it cannot show that no interleaving makes wallets' trees, checkpoints or balances differ from the ledger's, nor that covered requests are always accepted.", "anchors": ["manta-pay/src/simulation/mod.rs:Simulation", "manta-pay/src/simulation/ledger/mod.rs:pull", "manta-pay/src/simulation/ledger/mod.rs:push", "manta-pay/src/simulation/ledger/mod.rs:LedgerConnection", "manta-accounting/src/wallet/mod.rs:sync", "manta-accounting/src/wallet/mod.rs:post", "manta-accounting/src/wallet/signer/functions.rs:sync", "manta-accounting/src/wallet/signer/functions.rs:sign_internal", "manta-crypto/src/merkle_tree/forest.rs:MerkleForest"]}
{"id": "C133", "title": "A refused post is told the first check it failed", "statement": "Validation of a post checks, in this order: that an authorization signature is present exactly if something is spent and verifies; that an asset id is present exactly if there are public amounts, and an account for every amount; that every source account holds its amount; that every sink account exists; that no two spent coins have the same nullifier; that no two new coins are equal; for each spent coin that its root is known and its nullifier not; that no new coin is registered; that the numbers of participants are those of a transfer; and that the proof verifies. The error reported is that of the first check that fails, all earlier ones having passed, and a post is valid exactly if none fails.", "quantifier": "all posts, ledgers and lists of accounts", "why_tests_cant": "Posts that fail several checks at once are as many as the sets of checks; tests submit posts with one fault.", "anchors": ["manta-accounting/src/transfer/mod.rs:TransferPost::validate", "manta-accounting/src/transfer/mod.rs:has_valid_authorization_signature", "manta-accounting/src/transfer/mod.rs:check_public_participants", "manta-accounting/src/transfer/sender.rs:SenderPost::validate", "manta-accounting/src/transfer/receiver.rs:ReceiverPost::validate", "manta-pay/src/simulation/ledger/mod.rs:is_valid"]}
{"id": "C134", "title": "The published keys are those of the last verified round", "statement": "If the transcript verifier gets through, then for every circuit of the ceremony the key files in the directory are read as the proving key of the last round of a chain of verified contributions and as the verifying context of this key, whatever the directory held before. If a circuit fails, the circuits before it have these keys and nothing else has changed. The key files are exactly the encodings of the keys, and where no key can be extracted none is left.", "quantifier": "all transcripts, all lists of circuits, all contents of the directory, all readers", "why_tests_cant": "A test extracts one key into an empty directory; leftovers of earlier files and failures in later circuits do not show.", "anchors": ["manta-trusted-setup/src/groth16/mpc.rs:extract_keys", "manta-trusted-setup/src/bin/groth16_phase2_verifier.rs:verify_ceremony", "manta-crypto/src/arkworks/groth16.rs:get_verifying_context", "manta-util/src/codec.rs:IoWriter"]}
{"id": "C135", "title": "What is generated and published is what programs load", "statement": "The proving and verifying contexts of a generation belong together and to its parameters. The generator writes each of its seventeen values at the start of a file of its own and touches nothing else, and running it again changes nothing. If the repository publishes these files and the library builds, then a program that loads the parameters gets exactly the generated values, each in its own place, unless a downloaded file collides with the published one; and it gets them whenever the servers deliver the published files. Nothing is loaded if an included file does not have the checksum included with it, and loading does not harm valid files in the download directory. The published files depend on the seed alone.", "quantifier": "all seeds, samplers and circuits, all former contents of the directory, all orders of the walk, all answers of the servers, all contents of the download directory", "why_tests_cant": "A unit test compares the checksums of one set of files; a test cannot swap two files of the same type and notice, and runs in empty directories.", "anchors": ["manta-pay/src/bin/generate_parameters.rs:main", "manta-pay/src/parameters.rs:generate_from_seed", "manta-pay/src/parameters.rs:load_parameters", "manta-pay/src/parameters.rs:load_transfer_parameters", "manta-pay/src/parameters.rs:load_proving_context", "manta-pay/src/parameters.rs:try_load_proving_context", "manta-parameters/src/lib.rs:define_dat", "manta-parameters/src/lib.rs:define_lfs"]}
{"id": "C136", "title": "The configuration of manta-pay is one in which wallets work", "statement": "Take the functions that manta-pay configures: Poseidon for viewing keys, commitments, accumulator items, nullifiers and Merkle trees, the duplex cipher for the notes that are checked in the circuit, AES-GCM with Blake2s keys for the others, Blake2s for partitions, shards and signature challenges, and proofs of the constraint systems that the compiler generates. Then wallets that share a ledger keep one account book as in C132: coins and public balances are what the requests add up to, nothing is overdrawn, synchronizing succeeds and reports the entry, and covered payments, deposits, consolidations and withdrawals of one post are proved and accepted. What remains as possible accident is a collision of a Poseidon hasher among inputs that were actually hashed, or a Merkle node that is the default digest.", "quantifier": "all constants of the hash functions of the right sizes, all curves, all AES and Blake2s functions, all complete proof systems, all wallets and keys with different addresses, all histories", "why_tests_cant": "A test runs one set of constants and a few transfers; that no transfer of an honest wallet falls outside what the circuit accepts, and that no type conversion between protocol, circuit, cipher and ledger loses anything, is a statement about all of them.", "anchors": ["manta-pay/src/config/mod.rs:Config", "manta-pay/src/config/utxo.rs:UtxoCommitmentScheme", "manta-pay/src/config/utxo.rs:UtxoAccumulatorItemHash", "manta-pay/src/config/utxo.rs:NullifierCommitmentScheme", "manta-pay/src/config/utxo.rs:IncomingBaseEncryptionScheme", "manta-pay/src/config/utxo.rs:IncomingAESConverter", "manta-pay/src/config/utxo.rs:OutgoingAESConverter", "manta-pay/src/config/utxo.rs:AddressPartitionFunction", "manta-pay/src/config/utxo.rs:SchnorrHashFunction", "manta-accounting/src/transfer/mod.rs:unknown_constraints", "manta-accounting/src/transfer/mod.rs:known_constraints", "manta-accounting/src/transfer/mod.rs:generate_context"]}
{"id": "C137", "title": "Forks of a shared tree", "statement": "Any number of forks can be taken of a tree that is kept in a trunk, with or without leaves of their own. A fork answers as the plain tree of the leaves of the trunk followed by its own leaves: length, root, paths. Growing a fork changes neither the trunk nor other forks. Merging a fork appends exactly its leaves to the trunk and detaches all other forks of this trunk; so does taking the tree out of its trunk. A detached fork keeps its root and the paths of its own leaves, accepts no leaves and is not merged, and gives no path for the leaves that only the trunk knew. A fork is merged only into the trunk it is attached to. Attaching a fork to a trunk puts its leaves after those of the trunk, and is refused, without effect, only if they do not fit.", "quantifier": "all hash functions, all heights, all programs of any length with any number of trunks and forks", "why_tests_cant": "Which forks are attached depends on the identity of allocations through whole histories of merges and attachments; tests exercise single forks.", "anchors": ["manta-crypto/src/merkle_tree/fork.rs:Trunk::new", "manta-crypto/src/merkle_tree/fork.rs:Trunk::into_tree", "manta-crypto/src/merkle_tree/fork.rs:Trunk::fork", "manta-crypto/src/merkle_tree/fork.rs:Trunk::merge", "manta-crypto/src/merkle_tree/fork.rs:Fork::with_leaves", "manta-crypto/src/merkle_tree/fork.rs:Fork::attach", "manta-crypto/src/merkle_tree/fork.rs:Fork::is_attached_to", "manta-crypto/src/merkle_tree/fork.rs:Fork::path", "manta-crypto/src/merkle_tree/fork.rs:Fork::push", "manta-crypto/src/merkle_tree/fork.rs:Branch::try_rebase", "manta-util/src/pointer.rs:PointerFamily"]}
{"id": "C138", "title": "Random values are uniform and fuzzed values differ", "statement": "If the words of a generator are independent and uniform, then every boolean, every value of `u8`, `u16`, `u32`, `i8`, `i16`, `i32`, `u64` and `u128` is sampled with the same probability, values sampled one after another are independent, arrays (and arrays of arrays) are uniform, and an item selected from a list is each position with the same probability. Fuzzing a byte, a big integer or an element of a prime field changes exactly one bit, each with the same probability; fuzzing a vector changes one entry; a fuzzed value is never the value itself.", "quantifier": "all values, all lengths, all samplers and fuzzers of the entries, all odd moduli", "why_tests_cant": "Uniformity is a statement about all answers of the generator at once; statistical tests cannot tell a small bias, and a fuzzer that sometimes returns its argument makes negative tests pass or fail at random.", "anchors": ["manta-crypto/src/rand.rs:Sample", "manta-crypto/src/rand.rs:Rand::sample_iter", "manta-crypto/src/rand.rs:Rand::select_item", "manta-crypto/src/rand.rs:fuzz::Fuzz", "manta-crypto/src/rand.rs:fuzz::to_bits_le", "manta-crypto/src/rand.rs:fuzz::from_bits_le", "manta-crypto/src/arkworks/ff.rs:div_rem"]}
{"id": "C139", "title": "The keys that are published are Groth16 keys with everybody's secret in them", "statement": "Let phase 2 be started for a circuit from powers of tau whose secret point is not in the domain. Whatever requests the coordinator then gets, in whatever order, with timeouts and restarts, the key it hands out for the circuit, in memory or after a restart, is a Groth16 proving key of this circuit for the same phase 1 secrets and a nonzero `\u03b4`. After the ceremony anyone, with their own randomness, verifies the directory successfully and publishes this key, whose `\u03b4` is the product of the secrets of the participants who were credited. Conversely, for any directory that passes verification and starts with the initial key, the published files are read as the Groth16 key whose `\u03b4` is the product of the secrets of the proof files. With such a key every satisfying assignment has an accepted proof.", "quantifier": "all circuits, all phase 1 secrets, all histories and interleavings of the coordinator, all coefficients of the verifiers that let no wrong element through, all directories, all encodings of keys that are read back", "why_tests_cant": "It is the purpose of the whole ceremony and depends on the agreement of the initialization, the verification of contributions, the queue and files of the coordinator, recovery, the transcript verifier and the key encoding; a ceremony cannot be run to compare its key with secrets nobody knows.", "anchors": ["manta-trusted-setup/src/groth16/mpc.rs:initialize", "manta-trusted-setup/src/groth16/mpc.rs:verify_transform", "manta-trusted-setup/src/groth16/mpc.rs:contribute", "manta-trusted-setup/src/groth16/ceremony/server.rs:Server", "manta-trusted-setup/src/groth16/ceremony/coordinator.rs:StateChallengeProof::update", "manta-trusted-setup/src/bin/groth16_phase2_verifier.rs:verify_ceremony", "manta-trusted-setup/src/groth16/ceremony/config/ppot.rs:extract_keys"]}
{"id": "C140", "title": "A failing proof is reported as such and changes nothing else", "statement": "Whatever the proof system does, a signing or consolidation request either has exactly the outcome it has with a proof system that never fails, or returns the proof system's error. A request that would be answered with some posts is answered with the same posts iff the proof system succeeds on every one of them, and with the proof system's error iff it fails on one of them. So a transfer or withdrawal that the signer's coins cover never panics and never fails for any other reason.", "quantifier": "every signer state, request and behaviour of the proof system", "why_tests_cant": "Tests run with a proof system that works; the failures that matter are those in the middle of a batch of unbounded length.", "anchors": ["manta-accounting/src/wallet/signer/functions.rs:sign", "manta-accounting/src/wallet/signer/functions.rs:consolidate", "manta-accounting/src/wallet/signer/functions.rs:compute_batched_transactions", "manta-accounting/src/wallet/signer/functions.rs:process_to_public_senders"]}
{"id": "C141", "title": "Circuit measurements add up", "statement": "The size of a piece of circuit is the growth of every count the system keeps. Sizes add like numbers, a difference exists iff no count kept by both sides would become negative, and subtracting what was added gives every count back. An instrument leaves the system as the calls alone would, records the labels of the measured calls in order, and its measurements add up to the growth of the system if every call is measured, and to at most that if direct calls which do not remove anything are mixed in. It panics iff a call panics or a measured call makes a count smaller, which no gadget of the compiler does. Measuring after a call adds the size of the whole system, not of the call.", "quantifier": "all sizes, all systems that keep the same counts in all states, all sequences of measured and direct calls", "why_tests_cant": "Tests print the sizes of three circuits; that the parts add up for every way of splitting a circuit, and when measuring may panic, is about arbitrary sequences of calls.", "anchors": ["manta-crypto/src/constraint.rs:Size::checked_sub", "manta-crypto/src/constraint.rs:AddAssign for Size", "manta-crypto/src/constraint.rs:Measure::after", "manta-crypto/src/constraint.rs:Measure::after_ignore", "manta-crypto/src/constraint.rs:Instrument::measure", "manta-crypto/src/constraint.rs:print_measurement", "manta-crypto/src/arkworks/constraint/mod.rs:Measure for R1CS"]}
{"id": "C142", "title": "Adapters keep what the scheme below them promises", "statement": "A scheme built from another one by any number of plaintext, header and key adapters and hybrid key agreements, in any order, decrypts what it encrypts for every key pair, header and randomness, provided each conversion fits: plaintexts come back from their conversion, converted keys belong together, both sides of the agreement obtain keys that belong together. The note schemes of manta-pay are such stacks: a note sealed for the public key of a secret key opens with the secret key to the same note. Deriving keys through a key adapter works if the conversions commute with derivation and may fail otherwise. A signature adapter lets a signature be reused for another message iff the targets coincide or the scheme below allows it.", "quantifier": "all schemes, conversions, stacks of adapters, keys, randomness, headers and plaintexts", "why_tests_cant": "Tests run three concrete stacks on random notes; that correctness is preserved by every stack and for every key is a statement about all schemes.", "anchors": ["manta-crypto/src/encryption/convert/plaintext.rs:Converter", "manta-crypto/src/encryption/convert/header.rs:Converter", "manta-crypto/src/encryption/convert/key.rs:Converter", "manta-crypto/src/encryption/hybrid.rs:Hybrid", "manta-crypto/src/encryption/mod.rs:Message::encrypt", "manta-crypto/src/encryption/mod.rs:EncryptedMessage::decrypt", "manta-crypto/src/signature/convert.rs:Converter", "manta-pay/src/config/utxo.rs:IncomingBaseEncryptionScheme", "manta-pay/src/config/utxo.rs:IncomingBaseAES", "manta-pay/src/config/utxo.rs:OutgoingBaseAES"]}
{"id": "C143", "title": "The ceremony server cannot get stuck", "statement": "However many start, query and update requests and reloads of the registry run at the same time, on however many threads and in whatever order: what is behind a lock is used only by the one request that holds it, no request holds a lock while it waits for a thread, and as long as a request is unanswered some request can go on. If no new requests arrive, all of them are answered after a number of steps that depends only on what they have left to do.", "quantifier": "all numbers of requests, all outcomes of requests, all numbers of threads (at least one of each kind), all interleavings", "why_tests_cant": "A deadlock needs a particular interleaving of several requests; tests run one request at a time or sample a few schedules.", "anchors": ["manta-trusted-setup/src/groth16/ceremony/server.rs:Server::query", "manta-trusted-setup/src/groth16/ceremony/server.rs:Server::update", "manta-trusted-setup/src/groth16/ceremony/server.rs:Server::update_registry", "manta-trusted-setup/src/groth16/ceremony/server.rs:Server::start"]}
{"id": "C144", "title": "Requests of the ceremony server take effect one after another", "statement": "However the requests of the server are interleaved, lock by lock, read by read and file by file, what has happened so far is explained by a history in which every step of a request (a query, the check of a contribution, its verification with the files of the round, its entry in the registry, a reload) happens at once: every answer is the one its own step gives in that history, each request occurs in it at most once, and exactly once if all have been answered, and whenever no lock is held the registry, the queue, the state of the ceremony and the recovery files are those after the history. Later actions only extend the history, no execution goes on forever, and when nothing can happen any more every request has been answered. So whatever each whole step preserves holds of the server under concurrency.", "quantifier": "all numbers of requests with any contents, all states of the server, all interleavings of their actions that the locks allow", "why_tests_cant": "A lost update or a file of the wrong round needs one particular interleaving; tests run the requests one after another.", "anchors": ["manta-trusted-setup/src/groth16/ceremony/server.rs:Server::query", "manta-trusted-setup/src/groth16/ceremony/server.rs:Server::update", "manta-trusted-setup/src/groth16/ceremony/server.rs:Server::update_registry", "manta-trusted-setup/src/groth16/ceremony/coordinator.rs:StateChallengeProof::update", "manta-trusted-setup/src/groth16/ceremony/coordinator.rs:LockQueue::has_lock"]}
{"id": "C145", "title": "A signature of a ceremony participant says one thing", "statement": "One key signs a participant's registration, queries and contribution, without a tag that tells them apart. Still, the bytes that are signed determine what they are for: two requests with the same bytes have the same nonce, kind and content, no request has the bytes of a registration, and two registrations with the same bytes have the same registration message. So if the server lets only signatures through that the participant made, then every request that it lets through in a history without restarts is one that the participant signed as a request, with that nonce and that content, and none is let through twice; and a row is accepted under a key only if its message was signed as a registration.", "quantifier": "all nonces, accounts, addresses, states and proofs of any number and length that fit in memory, all histories of the server without restarts, all lists of things that the participant signs", "why_tests_cant": "Whether two encodings of different types can coincide is a question about all inputs; tests sign and verify a few messages of one type.", "anchors": ["manta-trusted-setup/src/ceremony/signature.rs:RawMessage", "manta-trusted-setup/src/ceremony/signature.rs:sign", "manta-trusted-setup/src/ceremony/signature.rs:verify", "manta-trusted-setup/src/groth16/ceremony/message.rs:QueryRequest", "manta-trusted-setup/src/groth16/ceremony/message.rs:ContributeRequest", "manta-trusted-setup/src/groth16/ceremony/config/ppot.rs:register", "manta-trusted-setup/src/groth16/ceremony/config/ppot.rs:Record::parse", "manta-crypto/src/dalek/ed25519.rs:Ed25519", "manta-util/src/bytes.rs:AsBytes"]}
{"id": "C146", "title": "Who registers with the client and keeps the secret is let in", "statement": "The client's registration prints a secret phrase and a link to a form. If the form that the link opens is submitted and its row is among those that the organiser processes, then the registry has the participant's key, and with the secret typed at the ceremony, with any blanks around it, the client has the matching signing key: its requests with the registered nonce pass the server's checks. A text that is not a phrase yields no keys.", "quantifier": "all phrases, accounts and addresses, all blanks around the secret, all files of the organiser that contain the row, all request bodies", "why_tests_cant": "Registration and contribution are separate runs of the client with a form and a spreadsheet in between; no test goes through all of them, and whether a text survives the link depends on its characters.", "anchors": ["manta-trusted-setup/src/groth16/ceremony/config/ppot.rs:generate_keys", "manta-trusted-setup/src/groth16/ceremony/config/ppot.rs:register", "manta-trusted-setup/src/groth16/ceremony/config/ppot.rs:register_link", "manta-trusted-setup/src/groth16/ceremony/config/ppot.rs:get_client_keys", "manta-trusted-setup/src/groth16/ceremony/config/ppot.rs:extract_registry", "manta-trusted-setup/src/groth16/ceremony/coordinator.rs:preprocess_request", "manta-trusted-setup/src/bin/groth16_phase2_client.rs:run"]}
{"id": "C147", "title": "Every visible file of the data directory is checked when the library is built", "statement": "The build looks at every file below the data directory with no hidden part in its path, once, and at no other. Exactly the files that the ignore file in their own directory excludes are passed over. The build succeeds exactly if every other visible file is text or has a well-formed entry under its path in the list of checksums, local data with its own hash; local data is then embedded unchanged, unless another data file differs only in the extension.", "quantifier": "all directory trees, all listing orders, all lists of checksums, all meanings of ignore files, all earlier contents of the output", "why_tests_cant": "Ranges over all directory trees; the build runs on the one in the repository.", "anchors": ["manta-parameters/build.rs:main", "manta-parameters/build.rs:is_hidden", "manta-parameters/build.rs:build_ignore_table", "manta-parameters/build.rs:should_ignore"]}
{"id": "C148", "title": "A timed value is not taken over before its time limit", "statement": "In every history of operations on a timed value, an operation with a time limit takes effect exactly if the limit has passed since the creation of the value and since every operation that took effect before; operations without a limit always do. So a value that was put in place stays until the limit has passed, whatever is tried between. An operation answers with the value before it, the value is what the effective operations make of the first, and a copy, also one read from a file, starts the time anew.", "quantifier": "all values, histories, limits and clocks that do not go backwards", "why_tests_cant": "Depends on the order of many operations and on the clock between two readings; tests wait for one timeout.", "anchors": ["manta-util/src/time/lock.rs:Timed::has_expired", "manta-util/src/time/lock.rs:Timed::mutate_if_expired", "manta-util/src/time/lock.rs:Timed::set_if_expired", "manta-util/src/time/lock.rs:Timed::mutate_timed"]}
{"id": "C149", "title": "A precomputed ledger contains the sampled transactions", "statement": "The two functions that fill a ledger with sampled transactions leave a ledger with the coins of all of them: in the checked mode every transaction is accepted, and in the unchecked mode every transaction of a known shape is recorded, whoever submits it.", "quantifier": "all sequences of drawn transactions, accounts and values, all ledger states", "why_tests_cant": "The answers of the ledger are dropped, so no test run fails, and the accounts are drawn at random in every run.", "anchors": ["manta-pay/src/simulation/ledger/mod.rs:safe_fill_ledger", "manta-pay/src/simulation/ledger/mod.rs:unsafe_fill_ledger", "manta-pay/src/simulation/ledger/mod.rs:Ledger::unsafe_push", "manta-pay/src/bin/precompute_ledger.rs:main"]}
