{
 "claims": [
  {
   "property": "C01",
   "status": "proved",
   "theorems": [
    "Verif.Merkle.c01_root",
    "Verif.Merkle.c01_determined"
   ],
   "note": ""
  },
  {
   "property": "C02",
   "status": "proved",
   "theorems": [
    "Verif.Merkle.c02_path_verifies",
    "Verif.Merkle.c02_out_of_range",
    "Verif.Merkle.c02_empty_zero"
   ],
   "note": ""
  },
  {
   "property": "C03",
   "status": "partial",
   "theorems": [
    "Verif.Merkle.c03_push",
    "Verif.Merkle.c03_extend_partial",
    "Verif.Merkle.c03_extend_exact_panics"
   ],
   "note": "single appends proved; a bulk append that fills the tree exactly panics after appending everything (proved for every tree and list), other bulk appends are all-or-none"
  },
  {
   "property": "C04",
   "status": "proved",
   "theorems": [
    "Verif.Merkle.c04_agrees",
    "Verif.Merkle.c04_current_path",
    "Verif.Merkle.c04_raw"
   ],
   "note": ""
  },
  {
   "property": "C05",
   "status": "proved",
   "theorems": [
    "Verif.Merkle.c05_binding",
    "Verif.Merkle.c05_determined",
    "Verif.Merkle.c05_tree"
   ],
   "note": ""
  },
  {
   "property": "C06",
   "status": "partial",
   "theorems": [
    "Verif.Merkle.c06_single",
    "Verif.Merkle.c06_out_of_range",
    "Verif.Merkle.c06_partial",
    "Verif.Merkle.c06_settled_partial",
    "Verif.Merkle.c06_violated",
    "Verif.Merkle.c06_start_violated"
   ],
   "note": "full statement proved for histories of single appends, removals and prunes; with batch appends the root and paths can be wrong until the next single append (witness), exactly characterised by alignment; pruning a tree with a starting index can panic (witness)"
  },
  {
   "property": "C07",
   "status": "partial",
   "theorems": [
    "Verif.Merkle.c07_batch_partial",
    "Verif.Merkle.c07_settled_partial",
    "Verif.Merkle.c07_violated"
   ],
   "note": "false in the code for batches starting at a right inner node and ending at a left one (witness); proved for all other batches, and for every history once one more single append succeeded"
  },
  {
   "property": "C08",
   "status": "partial",
   "theorems": [
    "Verif.Merkle.c08_trunk_untouched",
    "Verif.Merkle.c08_reset",
    "Verif.Merkle.c08_full_partial",
    "Verif.Merkle.c08_pruned_partial",
    "Verif.Merkle.c08_empty_violated",
    "Verif.Merkle.c08_height_two_violated"
   ],
   "note": "Proved for every trunk: branch operations leave the trunk alone and a reset gives the state of a fresh fork. The fresh fork has the length, root and paths of every nonempty full or partial trunk of height at least three (no inner node of the trunk being the default digest). Empty trunks and height two violate the claim in the code; both are proved with witnesses."
  },
  {
   "property": "C09",
   "status": "partial",
   "theorems": [
    "Verif.Merkle.c09_full_partial",
    "Verif.Merkle.c09_pruned_partial",
    "Verif.Merkle.c09_appends",
    "Verif.Merkle.c09_committed_leaves",
    "Verif.Merkle.c09_exact_commit_panics",
    "Verif.Merkle.c09_remove_panics",
    "Verif.Merkle.c09_marks_lost",
    "Verif.Merkle.c09_branch_refused",
    "Verif.Merkle.c08_height_two_violated"
   ],
   "note": "Refinement of every history of a forked tree to plain sequences of committed and pending leaves, over full and partial trunks. Excluded: the moment right after a misaligned batch, empty branches, height two, commits filling the tree exactly (panic), all shown with witnesses."
  },
  {
   "property": "C10",
   "status": "proved",
   "theorems": [
    "Verif.Merkle.c10_isolated",
    "Verif.Merkle.c10_answers",
    "Verif.Merkle.c10_partial_trees",
    "Verif.Merkle.c10_forked_trees"
   ],
   "note": "Isolation for every kind of tree; per-tree leaf sequences, lengths and roots for partial trees and for the forked trees of wallets."
  },
  {
   "property": "C100",
   "status": "partial",
   "theorems": [
    "Verif.Merkle.c100_tree_partial",
    "Verif.Merkle.c100_accumulator",
    "Verif.Merkle.c100_old_items_violated"
   ],
   "note": "roots, lengths and later proofs are right as long as no inner node committed is the default digest; misaligned batches as in C06; old items are said to be contained but their proofs are wrong (witness)"
  },
  {
   "property": "C101",
   "status": "partial",
   "theorems": [
    "Verif.Ceremony.c101_circuit_iff",
    "Verif.Ceremony.c101_accept_iff",
    "Verif.Ceremony.c101_honest_partial",
    "Verif.Ceremony.c101_hashes_partial",
    "Verif.Ceremony.c101_hash_rounds",
    "Verif.Ceremony.c101_truncated_violated",
    "Verif.Ceremony.c101_griefed_violated"
   ],
   "note": "exactly what is accepted; honest directories are, unless a refused contribution was partly taken over (witness); a missing proof file of any round of one circuit is not noticed and gives older keys (general theorem)"
  },
  {
   "property": "C102",
   "status": "partial",
   "theorems": [
    "Verif.Ceremony.c102_nonces",
    "Verif.Ceremony.c102_outcome_partial",
    "Verif.Ceremony.c102_accepted_partial",
    "Verif.Ceremony.c102_race_violated",
    "Verif.Ceremony.c102_lost_answer_violated"
   ],
   "note": "nonces for all histories; reports are true without restarts of the coordinator; the window holds while no contribution of others is being processed; both restrictions are needed (witnesses)"
  },
  {
   "property": "C103",
   "status": "partial",
   "theorems": [
    "Verif.Gadget.c103_select",
    "Verif.Gadget.c103_select_order_violated",
    "Verif.Gadget.c103_window",
    "Verif.Gadget.c103_window_zero",
    "Verif.Gadget.c103_circuit",
    "Verif.Gadget.c103_fixed_partial",
    "Verif.Gadget.c103_fixed_violated",
    "Verif.Gadget.c103_modulus",
    "Verif.Gadget.c103_scalar",
    "Verif.Gadget.c103_hash_scalar",
    "Verif.Gadget.c103_hash_scalar_order_violated"
   ],
   "note": "tables of precomputed bases silently drop the bits beyond their length, so scalar variables that are not reduced are multiplied wrongly (general theorem; the function is not used by the payment circuits); table selection reads the bits in the opposite of the documented order (witness); the rest is proved for all inputs"
  },
  {
   "property": "C104",
   "status": "partial",
   "theorems": [
    "Verif.Gadget.c104_range",
    "Verif.Gadget.c104_range_panic",
    "Verif.Gadget.c104_circuit",
    "Verif.Gadget.c104_add_violated",
    "Verif.Gadget.c104_mul_violated"
   ],
   "note": "for widths with 2^(bits+1) at most the modulus (products: 2^(2*bits)); the width check of the code admits one bit more, and then sums wrap (general theorems). U128 over the 254-bit field is covered, its products are not"
  },
  {
   "property": "C105",
   "status": "partial",
   "theorems": [
    "Verif.Gadget.c105_native",
    "Verif.Gadget.c105_honest",
    "Verif.Gadget.c105_sound_partial",
    "Verif.Gadget.c105_sound_violated",
    "Verif.Gadget.c105_large"
   ],
   "note": "the native code is right; the gadget does not bound the quotient, so it accepts every remainder (general theorem). It is not used by the payment circuits"
  },
  {
   "property": "C106",
   "status": "partial",
   "theorems": [
    "Verif.Ppot.c106_size",
    "Verif.Ppot.c106_compressed",
    "Verif.Ppot.c106_uncompressed",
    "Verif.Ppot.c106_injective",
    "Verif.Ppot.c106_valid",
    "Verif.Ppot.c106_subgroup_violated",
    "Verif.Ppot.c106_canonical_violated",
    "Verif.Ppot.c106_short_read_violated"
   ],
   "note": "all points come back; the documented subgroup check is missing for compressed points, encodings that are read are not unique, and a reader that delivers fewer bytes is not noticed (general theorems)"
  },
  {
   "property": "C107",
   "status": "partial",
   "theorems": [
    "Verif.Ppot.c107_accumulator",
    "Verif.Ppot.c107_accumulator_sound",
    "Verif.Ppot.c107_proof",
    "Verif.Ppot.c107_proof_sound",
    "Verif.Ppot.c107_file",
    "Verif.Ppot.c107_file_sound",
    "Verif.Ppot.c107_proof_file",
    "Verif.Ppot.c107_subgroup_violated",
    "Verif.Ppot.c107_invalid_violated",
    "Verif.Ppot.c107_oversized_violated"
   ],
   "note": "everything written is read back and files are checked; compressed accumulators outside of the files are not checked for the subgroup, an invalid point of an uncompressed file panics, and a ceremony larger than the file mixes the sections (general theorems)"
  },
  {
   "property": "C108",
   "status": "proved",
   "theorems": [
    "Verif.Ppot.c108_input",
    "Verif.Ppot.c108_seed",
    "Verif.Ppot.c108_words",
    "Verif.Ppot.c108_uniform",
    "Verif.Ppot.c108_first",
    "Verif.Ppot.c108_coords",
    "Verif.Ppot.c108_sign",
    "Verif.Ppot.c108_point",
    "Verif.Ppot.c108_candidates",
    "Verif.Ppot.c108_sampled",
    "Verif.Ppot.c108_start",
    "Verif.Ppot.c108_hash"
   ],
   "note": "Blake2b, ChaCha20 and multiplication by the cofactor are parameters; the last is assumed to map the curve into the group"
  },
  {
   "property": "C109",
   "status": "partial",
   "theorems": [
    "Verif.Ppot.c109_uncompressed_partial",
    "Verif.Ppot.c109_compressed_violated",
    "Verif.Ppot.c109_swapped_violated",
    "Verif.Ppot.c109_checked_violated"
   ],
   "note": "only uncompressed points come back; the reader of compressed points reads uncompressed ones, and the reader with checks does not check (general theorems)"
  },
  {
   "property": "C11",
   "status": "proved",
   "theorems": [
    "Verif.Merkle.c11_tree",
    "Verif.Merkle.c11_compress_expand",
    "Verif.Merkle.c11_expand_compress",
    "Verif.Merkle.c11_rejects",
    "Verif.Merkle.c11_needs_nondefault"
   ],
   "note": ""
  },
  {
   "property": "C110",
   "status": "proved",
   "theorems": [
    "Verif.Setup.c110_elements",
    "Verif.Setup.c110_srs",
    "Verif.Setup.c110_update",
    "Verif.Setup.c110_verify",
    "Verif.Setup.c110_accepted",
    "Verif.Setup.c110_replay"
   ],
   "note": "at least two powers, as in C77 and C78"
  },
  {
   "property": "C111",
   "status": "partial",
   "theorems": [
    "Verif.Pay.c111_refused",
    "Verif.Pay.c111_paid",
    "Verif.Pay.c111_withdrawn",
    "Verif.Pay.c111_minted",
    "Verif.Pay.c111_consolidated",
    "Verif.Pay.c111_received",
    "Verif.Pay.c111_unsynced",
    "Verif.Pay.c111_error_violated"
   ],
   "note": "all requests for nonzero asset ids on a synchronized wallet; accumulator, prover, opening of notes and freshness of identifiers are assumed as stated, what the ledger accepts is not part of it. After a proof that fails in the middle of a batch the wallet is no longer consistent: the next synchronization skips coins (witness)"
  },
  {
   "property": "C112",
   "status": "proved",
   "theorems": [
    "Verif.Settle.c112_private_transfer",
    "Verif.Settle.c112_consolidation",
    "Verif.Settle.c112_mint"
   ],
   "note": "minting, private transfers and consolidations of any size, given laws of the primitives, completeness of the proof system, a faithful accumulator (C113) and no accidental collisions (`NoClash`)"
  },
  {
   "property": "C113",
   "status": "proved",
   "theorems": [
    "Verif.Settle.c113_step",
    "Verif.Settle.c113_remove",
    "Verif.Settle.c113_reachable",
    "Verif.Settle.c113_committed",
    "Verif.Settle.c113_contains",
    "Verif.Settle.c113_laws",
    "Verif.Settle.c113_grows",
    "Verif.Settle.c113_member",
    "Verif.Settle.c113_ready",
    "Verif.Settle.c113_private_transfer",
    "Verif.Settle.c113_wallet"
   ],
   "note": "histories without batches of provable leaves, which wallets do not use; release builds, where removing the proof of a committed leaf does nothing (debug builds panic, C66); roots and paths in a branch after a batch may be wrong (C07) until the next single insertion or commit, which synchronization does; that a leaf is contained means that the branch stores it or that its first place in the base was inserted as provable; no inner node of a committed tree is the default digest (Grove.Clear), which otherwise makes the code take a part of the tree for empty"
  },
  {
   "property": "C114",
   "status": "partial",
   "theorems": [
    "Verif.Settle.c114_to_public_partial",
    "Verif.Settle.c114_to_public_single",
    "Verif.Settle.c114_stale_rejected",
    "Verif.Settle.c114_to_public_violated"
   ],
   "note": "withdrawals only if no change lands in the shard of a coin spent later in the request, in particular for at most two coins; otherwise the second post is proved for a root the ledger no longer knows and is rejected after the first one was applied (general theorem and witness)"
  },
  {
   "property": "C115",
   "status": "partial",
   "theorems": [
    "Verif.Params.c115_download",
    "Verif.Params.c115_if_invalid",
    "Verif.Params.c115_contexts",
    "Verif.Params.c115_complete_partial",
    "Verif.Params.c115_longer_violated",
    "Verif.Params.c115_destroyed_violated"
   ],
   "note": "nothing invalid is ever used; but the file is opened without truncation, so a file longer than the published data is never repaired (general theorem), and a failed download destroys a valid file (general theorem)"
  },
  {
   "property": "C116",
   "status": "partial",
   "theorems": [
    "Verif.Params.c116_checkfile",
    "Verif.Params.c116_builds_iff",
    "Verif.Params.c116_dat_partial",
    "Verif.Params.c116_lfs_partial",
    "Verif.Params.c116_stem_violated"
   ],
   "note": "for data files whose stem is unique; the checksums of two files that differ in the extension are stored in the same place (general theorem)"
  },
  {
   "property": "C117",
   "status": "partial",
   "theorems": [
    "Verif.Poseidon.c117_search",
    "Verif.Poseidon.c117_closed",
    "Verif.Poseidon.c117_float",
    "Verif.Poseidon.c117_bounds",
    "Verif.Poseidon.c117_margin",
    "Verif.Poseidon.c117_secure",
    "Verif.Poseidon.c117_level",
    "Verif.Poseidon.c117_shipped_partial",
    "Verif.Poseidon.c117_shipped_violated"
   ],
   "note": "search proved for all conditions, closed form for all arities; the configuration of arity 3 has one partial round less than recommended. Floating point is evaluated exactly"
  },
  {
   "property": "C118",
   "status": "partial",
   "theorems": [
    "Verif.Select.c118_order",
    "Verif.Select.c118_complete",
    "Verif.Select.c118_progress",
    "Verif.Select.c118_terminates",
    "Verif.Select.c118_delivers",
    "Verif.Select.c118_small_pool_violated"
   ],
   "note": "with two free threads besides the consumer; with fewer, nothing is ever returned (general theorem)"
  },
  {
   "property": "C119",
   "status": "partial",
   "theorems": [
    "Verif.Client.c119_own_partial",
    "Verif.Client.c119_shifted_violated",
    "Verif.Client.c119_unread",
    "Verif.Client.c119_stale_violated",
    "Verif.Client.c119_network",
    "Verif.Client.c119_separate",
    "Verif.Client.c119_numbers"
   ],
   "note": "over WebSocket the answers are shifted for good after one control frame or dropped request (general theorem); over HTTP proved"
  },
  {
   "property": "C12",
   "status": "proved",
   "theorems": [
    "Verif.Codec.c12_uint",
    "Verif.Codec.c12_uint_short",
    "Verif.Codec.c12_uint_canonical",
    "Verif.Codec.c12_unit",
    "Verif.Codec.c12_bool",
    "Verif.Codec.c12_pair",
    "Verif.Codec.c12_array",
    "Verif.Codec.c12_vec",
    "Verif.Codec.c12_asset_vec",
    "Verif.Codec.c12_to_vec",
    "Verif.Codec.c12_from_vec"
   ],
   "note": "every length/width; any reader satisfying LawfulReader; slice and Vec readers proved lawful"
  },
  {
   "property": "C120",
   "status": "proved",
   "theorems": [
    "Verif.Circuit.c120_exact",
    "Verif.Circuit.c120_total",
    "Verif.Circuit.c120_conservation"
   ],
   "note": "allocation of curve points and multiplication of points by scalars are one constraint each that states what ark-r1cs-std enforces; everything else is modelled down to the single constraints"
  },
  {
   "property": "C121",
   "status": "proved",
   "theorems": [
    "Verif.Circuit.c121_same"
   ],
   "note": ""
  },
  {
   "property": "C122",
   "status": "partial",
   "theorems": [
    "Verif.Circuit.c122_own_tag",
    "Verif.Circuit.c122_hash_partial",
    "Verif.Circuit.c122_encrypt",
    "Verif.Circuit.c122_path",
    "Verif.Circuit.c122_hash_violated"
   ],
   "note": "the circuit recomputes the domain tag of a hasher from its type, the native side uses the stored one"
  },
  {
   "property": "C123",
   "status": "proved",
   "theorems": [
    "Verif.Circuit.c123_backed",
    "Verif.Circuit.c123_ledger"
   ],
   "note": "the ledger drops the answer of the verifier (C59), so the verifier has to fail rather than to return false"
  },
  {
   "property": "C124",
   "status": "partial",
   "theorems": [
    "Verif.Ceremony.c124_run",
    "Verif.Ceremony.c124_registry",
    "Verif.Ceremony.c124_claimed",
    "Verif.Ceremony.c124_unread_violated",
    "Verif.Ceremony.c124_promotion_violated"
   ],
   "note": "rows that do not deserialize are in neither file; a later list of priorities has no effect on keys already processed"
  },
  {
   "property": "C125",
   "status": "partial",
   "theorems": [
    "Verif.Ceremony.c125_starts",
    "Verif.Ceremony.c125_prepared",
    "Verif.Ceremony.c125_interrupted",
    "Verif.Ceremony.c125_fails",
    "Verif.Ceremony.c125_used_violated"
   ],
   "note": "in a directory that was used before, recovery can pick up a registry of the earlier ceremony"
  },
  {
   "property": "C126",
   "status": "partial",
   "theorems": [
    "Verif.Fs.Container.c126_roundtrip",
    "Verif.Fs.Container.c126_format",
    "Verif.Fs.Container.c126_authentic",
    "Verif.Fs.Container.c126_agree",
    "Verif.Fs.Container.c126_untouched",
    "Verif.Fs.Container.c126_mini",
    "Verif.Fs.Container.c126_tampered",
    "Verif.Fs.Container.c126_fresh",
    "Verif.Fs.Container.c126_panic_violated",
    "Verif.Fs.Container.c126_reuse_violated"
   ],
   "note": "lengths near the limits of the machine panic before authentication; a seeded container reuses salt and nonce for everything it wraps"
  },
  {
   "property": "C127",
   "status": "partial",
   "theorems": [
    "Verif.Circuit.c127_conserved_partial",
    "Verif.Circuit.c127_witnesses_partial",
    "Verif.Circuit.c127_inflation_partial",
    "Verif.Circuit.c127_violated"
   ],
   "note": "holds for verifiers that fail; the ledger drops the answer false of a verifier (witness)"
  },
  {
   "property": "C128",
   "status": "proved",
   "theorems": [
    "Verif.Sign.c128_sign",
    "Verif.Sign.c128_consolidate",
    "Verif.Pay.c128_once",
    "Verif.Pay.c128_distinct",
    "Verif.Settle.c128_rand"
   ],
   "note": "a restart draws from new entropy, represented by positions of the stream that were not reached before"
  },
  {
   "property": "C129",
   "status": "proved",
   "theorems": [
    "Verif.Settle.c129_private",
    "Verif.Settle.c129_consolidation",
    "Verif.Settle.c129_mint",
    "Verif.Settle.c129_public"
   ],
   "note": "that nobody else opens a coin holds up to an explicit collision of commitments"
  },
  {
   "property": "C13",
   "status": "partial",
   "theorems": [
    "Verif.Codec.c13_option_some_decodes_to_none",
    "Verif.Codec.c13_option_roundtrip_false",
    "Verif.Codec.c13_result_swapped",
    "Verif.Codec.c13_option_partial"
   ],
   "note": "the code violates the claim: Some/None and Ok/Err tags are inverted between encoder and decoder; negation proved for every payload codec and value"
  },
  {
   "property": "C130",
   "status": "partial",
   "theorems": [
    "Verif.Keys.c130_contexts",
    "Verif.Keys.c130_generated",
    "Verif.Keys.c130_codec",
    "Verif.Keys.c130_truncated",
    "Verif.Keys.c130_write_errors",
    "Verif.Keys.c130_readers",
    "Verif.Keys.c130_missing",
    "Verif.Keys.c130_verify",
    "Verif.Keys.c130_bytes",
    "Verif.Keys.c130_checks",
    "Verif.Keys.c130_proof",
    "Verif.Keys.c130_read_errors_violated",
    "Verif.Keys.c130_trailing_violated",
    "Verif.Keys.c130_prepared_violated"
   ],
   "note": "everything is read back; but errors of readers are lost, trailing bytes are accepted, proving keys are not checked, and the prepared values of a verifying key are not compared with it (general theorems)"
  },
  {
   "property": "C131",
   "status": "proved",
   "theorems": [
    "Verif.World.c131_refines",
    "Verif.World.c131_reported",
    "Verif.World.c131_answers",
    "Verif.World.c131_measure"
   ],
   "note": "coins of the history open for their owner only (C129) and have different nullifiers and items; random streams do not repeat where they are used; each post is decided before the next request; asset ids other than zero"
  },
  {
   "property": "C132",
   "status": "proved",
   "theorems": [
    "Verif.Net.c132_refines",
    "Verif.Net.c132_reported",
    "Verif.Net.c132_pays",
    "Verif.Net.c132_consolidates",
    "Verif.Net.c132_mints",
    "Verif.Net.c132_withdraws",
    "Verif.Net.c132_setup",
    "Verif.Net.c132_simulation"
   ],
   "note": "assumes group laws, a complete proof system, correct decryption, a nullifier set without false positives, different addresses and random streams (Sane), and of each history that no two different coins in it have equal commitments, nullifiers or items, no inner node of the trees of the ledger was the default digest, and no wallet is ever paid 2^128 of an asset (NoAccident); acceptance of withdrawals of more posts is C114"
  },
  {
   "property": "C133",
   "status": "proved",
   "theorems": [
    "Verif.Ledger.c133_first",
    "Verif.Ledger.c133_reason"
   ],
   "note": "the verifier of proofs and the lookup of nullifiers are parameters; an answer false of the verifier is not a failure here (C59)"
  },
  {
   "property": "C134",
   "status": "partial",
   "theorems": [
    "Verif.Keys.c134_published",
    "Verif.Keys.c134_failed",
    "Verif.Keys.c134_answer",
    "Verif.Keys.c134_exact_partial",
    "Verif.Keys.c134_leftover_violated",
    "Verif.Keys.c134_empty_violated"
   ],
   "note": "what is read from the files is proved for all directories; the bytes only where no longer file is overwritten: files are opened without truncation, and before the state is read (general theorems)"
  },
  {
   "property": "C135",
   "status": "partial",
   "theorems": [
    "Verif.Params.c135_together",
    "Verif.Params.c135_written",
    "Verif.Params.c135_loaded",
    "Verif.Params.c135_loads_partial",
    "Verif.Params.c135_checked",
    "Verif.Params.c135_leftover_violated",
    "Verif.Params.c135_destroyed_violated"
   ],
   "note": "the codec of each value reads back what was written (C130); files of one stem are alone (C116); leftovers of longer files stay in the published files, so these do not depend on the seed alone, and longer files in the download directory block loading (C115)"
  },
  {
   "property": "C136",
   "status": "proved",
   "theorems": [
    "Verif.Manta.Config.c136_sane",
    "Verif.Manta.Config.c136_quiet",
    "Verif.Manta.Config.c136_refines",
    "Verif.Manta.Config.c136_reported",
    "Verif.Manta.Config.c136_pays",
    "Verif.Manta.Config.c136_consolidates",
    "Verif.Manta.Config.c136_mints",
    "Verif.Manta.Config.c136_withdraws"
   ],
   "note": "assumes that parameters have the expected sizes, AES decryption inverts encryption, the proof system is complete and is given a satisfying assignment if there is one, wallets have different addresses and random streams (Ready), and of each history that no Poseidon hasher collides among the inputs used, no inner node is the default digest and no wallet is ever paid 2^128 of an asset (Quiet)"
  },
  {
   "property": "C137",
   "status": "partial",
   "theorems": [
    "Verif.Merkle.c137_forks_partial",
    "Verif.Merkle.c137_pruned_partial",
    "Verif.Merkle.c137_attach_violated",
    "Verif.Merkle.c137_fill_violated"
   ],
   "note": "the code violates the claim: attaching is refused although the leaves fit, because the leaves at the old branching point are counted besides the new trunk (for every height, on a trunk that is half full); a fork that takes the last leaf makes the merge panic; misaligned batches, forks of empty trees and height two as in C08 and C09"
  },
  {
   "property": "C138",
   "status": "partial",
   "theorems": [
    "Verif.Rand.c138_bool",
    "Verif.Rand.c138_unsigned",
    "Verif.Rand.c138_signed",
    "Verif.Rand.c138_u64",
    "Verif.Rand.c138_u128",
    "Verif.Rand.c138_independent",
    "Verif.Rand.c138_array",
    "Verif.Rand.c138_select",
    "Verif.Rand.c138_fuzz_u8",
    "Verif.Rand.c138_fuzz_big",
    "Verif.Rand.c138_fuzz_vec",
    "Verif.Rand.c138_fuzz_field",
    "Verif.Rand.c138_fuzz_field_violated"
   ],
   "note": "the code violates the documented one bit for field elements, whose fuzzed representation is reduced; proved of them is that the result is another element. gen_range of the crate rand is taken to be uniform"
  },
  {
   "property": "C139",
   "status": "partial",
   "theorems": [
    "Verif.Whole.c139_always_partial",
    "Verif.Whole.c139_ceremony_partial",
    "Verif.Whole.c139_published_partial",
    "Verif.Whole.c139_factor",
    "Verif.Whole.c139_usable",
    "Verif.Whole.c139_erased_violated"
   ],
   "note": "the code violates the claim: a proof whose ratio is the identity is accepted for any factor, so the last participant can remove the secrets of all others (proved for every state of the coordinator); proved where ratios are not the identity; for the product over the credited contributions no contribution may be refused half way (C44), and what is not excluded is that a wrong element passes a random check (C75)"
  },
  {
   "property": "C14",
   "status": "partial",
   "theorems": [
    "Verif.Codec.c14_read_exact_partial",
    "Verif.Codec.c14_read_panics_iff_short",
    "Verif.Codec.c14_array_reader_never_advances",
    "Verif.Codec.c14_from_array_pair_wrong",
    "Verif.Codec.c14_vec_write_ref_reports_all_unwritten",
    "Verif.Codec.c14_vec_retry_diverges",
    "Verif.Codec.c14_io_write_partial",
    "Verif.Codec.c14_vec_write_drain",
    "Verif.Codec.c14_read_all",
    "Verif.Codec.c14_to_array",
    "Verif.Codec.c14_to_array_pair_panics",
    "Verif.Codec.c14_to_array_uint_partial",
    "Verif.Codec.c14_vec_decode_panics"
   ],
   "note": "read_exact of slice and Vec holds; plain read, array reader/writer and Vec write_ref violate the claim, exact behaviour proved"
  },
  {
   "property": "C140",
   "status": "proved",
   "theorems": [
    "Verif.Sign.c140_outcome",
    "Verif.Sign.c140_exact",
    "Verif.Sign.c140_covered",
    "Verif.Sign.c140_consolidate"
   ],
   "note": "the proof system is a function of the transfer; c140_covered assumes the accumulator laws and the signer state of C27, but nothing about the proof system"
  },
  {
   "property": "C141",
   "status": "proved",
   "theorems": [
    "Verif.Circuit.Measure.c141_sum",
    "Verif.Circuit.Measure.c141_difference",
    "Verif.Circuit.Measure.c141_inverse",
    "Verif.Circuit.Measure.c141_panics",
    "Verif.Circuit.Measure.c141_use",
    "Verif.Circuit.Measure.c141_uses",
    "Verif.Circuit.Measure.c141_totals",
    "Verif.Circuit.Measure.c141_safe",
    "Verif.Circuit.Measure.c141_after",
    "Verif.Circuit.Measure.c141_printed",
    "Verif.Circuit.Measure.c141_compiler"
   ],
   "note": "counts are natural numbers, overflow of usize is not modelled; the gadgets of the compiler are sequences of new constraints, inputs and witnesses"
  },
  {
   "property": "C142",
   "status": "proved",
   "theorems": [
    "Verif.Cipher.Adapters.c142_stack",
    "Verif.Cipher.Adapters.c142_message",
    "Verif.Cipher.Adapters.c142_derive",
    "Verif.Cipher.Adapters.c142_derive_needed",
    "Verif.Cipher.Adapters.c142_signature",
    "Verif.Cipher.Adapters.c142_stacks",
    "Verif.Cipher.Adapters.c142_notes"
   ],
   "note": "AES-GCM and Blake2s are parameters with the laws of C68; the circuit versions of the adapters are not part of this claim"
  },
  {
   "property": "C143",
   "status": "proved",
   "theorems": [
    "Verif.Ceremony.Locks.c143_exclusive",
    "Verif.Ceremony.Locks.c143_suspended",
    "Verif.Ceremony.Locks.c143_progress",
    "Verif.Ceremony.Locks.c143_drains",
    "Verif.Ceremony.Locks.c143_answers"
   ],
   "note": "the locking of requests only; what they compute is C41 to C47. Fairness of locks and of the runtime is not modelled: that a given request is not overtaken forever by new ones is not claimed"
  },
  {
   "property": "C144",
   "status": "proved",
   "theorems": [
    "Verif.Ceremony.Serial.c144_serial",
    "Verif.Ceremony.Serial.c144_server",
    "Verif.Ceremony.Serial.c144_complete",
    "Verif.Ceremony.Serial.c144_invariants"
   ],
   "note": "the process is not killed meanwhile (restarts: C45), and the time a request reads from the clock comes with the request; the history is one of the model of C41 to C47"
  },
  {
   "property": "C145",
   "status": "proved",
   "theorems": [
    "Verif.Ceremony.c145_request",
    "Verif.Ceremony.c145_separate",
    "Verif.Ceremony.c145_registration",
    "Verif.Ceremony.c145_agreement",
    "Verif.Ceremony.c145_row"
   ],
   "note": "signing and verification are parameters; that the server is shown no signature that the participant did not make is a hypothesis about the signatures of the history. With restarts requests can be replayed (C41), and registration messages with a comma in the account are ambiguous (C73)"
  },
  {
   "property": "C146",
   "status": "partial",
   "theorems": [
    "Verif.Ceremony.c146_form_partial",
    "Verif.Ceremony.c146_keys",
    "Verif.Ceremony.c146_typed",
    "Verif.Ceremony.c146_admitted_partial",
    "Verif.Ceremony.c146_violated"
   ],
   "note": "the code violates the claim for texts with an ampersand, since the link is not escaped; proved for all others. The form is assumed to take the pieces between ampersands as they are; its treatment of percent signs and plus signs is outside the repository"
  },
  {
   "property": "C147",
   "status": "proved",
   "theorems": [
    "Verif.Params.c147_walk",
    "Verif.Params.c147_name",
    "Verif.Params.c147_builds_iff",
    "Verif.Params.c147_embedded"
   ],
   "note": "what an ignore file excludes is a parameter; links and unreadable entries are not modelled"
  },
  {
   "property": "C148",
   "status": "proved",
   "theorems": [
    "Verif.Util.c148_limit",
    "Verif.Util.c148_exclusive",
    "Verif.Util.c148_value"
   ],
   "note": "readings of the clock are arguments; a clock that runs backwards is not considered"
  },
  {
   "property": "C149",
   "status": "partial",
   "theorems": [
    "Verif.Ledger.c149_mints_violated",
    "Verif.Ledger.c149_diverged",
    "Verif.Ledger.c149_funded_partial",
    "Verif.Ledger.c149_unsafe"
   ],
   "note": "the code violates the claim in the checked mode: a mint is submitted by another account than the one funded for it, so it is rejected and the answer dropped; proved in the unchecked mode. The functions that make the transactions are parameters"
  },
  {
   "property": "C15",
   "status": "proved",
   "theorems": [
    "Verif.Codec.c15_of_roundtrip",
    "Verif.Codec.c15_uint",
    "Verif.Codec.c15_bool",
    "Verif.Codec.c15_unit",
    "Verif.Codec.c15_pair",
    "Verif.Codec.c15_array",
    "Verif.Codec.c15_vec",
    "Verif.Codec.c15_option",
    "Verif.Codec.c15_result",
    "Verif.Codec.c15_body"
   ],
   "note": "integers, booleans, unit, pairs, arrays, vectors, Option, Result, transfer bodies"
  },
  {
   "property": "C16",
   "status": "proved",
   "theorems": [
    "Verif.Asset.AList.c16_value",
    "Verif.Asset.AList.c16_contains",
    "Verif.Asset.AList.c16_deposit",
    "Verif.Asset.AList.c16_remove",
    "Verif.Asset.AList.c16_retain",
    "Verif.Asset.AList.c16_history",
    "Verif.Asset.AList.c16_no_panic",
    "Verif.Asset.AList.c16_from_iter"
   ],
   "note": "for every search that meets the documented contract of slice::binary_search_by"
  },
  {
   "property": "C17",
   "status": "proved",
   "theorems": [
    "Verif.Asset.AList.c17_withdraw",
    "Verif.Asset.AList.c17_withdraw_unchecked",
    "Verif.Asset.c17_map_withdraw"
   ],
   "note": ""
  },
  {
   "property": "C18",
   "status": "proved",
   "theorems": [
    "Verif.Asset.c18_stores_agree"
   ],
   "note": "every map layout (BTreeMap and HashMap iteration orders)"
  },
  {
   "property": "C19",
   "status": "partial",
   "theorems": [
    "Verif.Asset.AList.c19_withdraw_all_partial",
    "Verif.Asset.AList.c19_violated"
   ],
   "note": "code violates atomicity on failure; exact success condition and success effect proved"
  },
  {
   "property": "C20",
   "status": "proved",
   "theorems": [
    "Verif.Asset.AMap.c20_select_exact",
    "Verif.Asset.AMap.c20_zeroes",
    "Verif.Asset.AMap.c20_asset_vector_with_id"
   ],
   "note": ""
  },
  {
   "property": "C21",
   "status": "proved",
   "theorems": [
    "Verif.Asset.AMap.c21_select_complete",
    "Verif.Asset.AMap.c21_select_overflow"
   ],
   "note": "hypothesis: total stock of the id fits the value type; without it selection can panic (c21_select_overflow)"
  },
  {
   "property": "C22",
   "status": "proved",
   "theorems": [
    "Verif.Asset.AMap.c22_select_preference"
   ],
   "note": ""
  },
  {
   "property": "C23",
   "status": "proved",
   "theorems": [
    "Verif.Asset.AMap.c23_coin_set",
    "Verif.Asset.AMap.c23_bulk"
   ],
   "note": ""
  },
  {
   "property": "C24",
   "status": "partial",
   "theorems": [
    "Verif.Wallet.c24_net",
    "Verif.Wallet.c24_error",
    "Verif.Wallet.c24_disjoint_partial",
    "Verif.Wallet.c24_disjoint_violated"
   ],
   "note": "net effect and failure condition proved for all inputs; disjointness fails after an exact cancellation (witness), proved when no id cancels exactly"
  },
  {
   "property": "C25",
   "status": "proved",
   "theorems": [
    "Verif.Wallet.c25_full",
    "Verif.Wallet.c25_partial_update",
    "Verif.Wallet.c25_checkpoint"
   ],
   "note": "totals are assumed to fit the value type"
  },
  {
   "property": "C26",
   "status": "partial",
   "theorems": [
    "Verif.Wallet.c26_refused",
    "Verif.Wallet.c26_prune_partial",
    "Verif.Wallet.c26_panics",
    "Verif.Wallet.c26_flag_violated",
    "Verif.Wallet.c26_lexicographic_drop"
   ],
   "note": "exact trimming proved when the request covers everything the signer has seen since the origin; otherwise the code panics, mislabels or drops unseen data (witnesses)"
  },
  {
   "property": "C27",
   "status": "proved",
   "theorems": [
    "Verif.Sign.c27_private_transfer",
    "Verif.Sign.c27_insufficient"
   ],
   "note": "assumes accumulator laws (Laws), a prover that succeeds on well-formed transfers of a nonzero asset id within the value range (Prover), coins provable (C55), fresh identifiers"
  },
  {
   "property": "C28",
   "status": "proved",
   "theorems": [
    "Verif.Sign.c28_to_public",
    "Verif.Sign.c28_to_private",
    "Verif.Sign.c27_insufficient"
   ],
   "note": "same assumptions as C27; a mint also needs a representable value"
  },
  {
   "property": "C29",
   "status": "proved",
   "theorems": [
    "Verif.Transfer.c29_signed",
    "Verif.Transfer.c29_unsigned",
    "Verif.Transfer.c29_error_iff"
   ],
   "note": ""
  },
  {
   "property": "C30",
   "status": "proved",
   "theorems": [
    "Verif.Transfer.c30_check",
    "Verif.Transfer.c30_ok_iff"
   ],
   "note": ""
  },
  {
   "property": "C31",
   "status": "proved",
   "theorems": [
    "Verif.Transfer.c31_post",
    "Verif.Transfer.c31_ledger"
   ],
   "note": ""
  },
  {
   "property": "C32",
   "status": "proved",
   "theorems": [
    "Verif.Transfer.c32_conservation",
    "Verif.Transfer.c32_openings",
    "Verif.Transfer.c32_unauthorized_senders_ignored",
    "Verif.Transfer.c32_small_field_wraps"
   ],
   "note": "field at least 2^129; authorization present iff senders, as every circuit built by the code"
  },
  {
   "property": "C33",
   "status": "partial",
   "theorems": [
    "Verif.Ledger.c33_no_double_spend_partial",
    "Verif.Ledger.c33_reuse_rejected_partial",
    "Verif.Ledger.c33_replay_rejected",
    "Verif.Ledger.c33_accepted",
    "Verif.Ledger.c33_rejected_no_effect",
    "Verif.Ledger.c33_push_prefix",
    "Verif.Ledger.c33_double_spend_violated"
   ],
   "note": "proved for a nullifier set whose hash agrees with equality; the hash of the code also covers the outgoing note, so a set that meets its contract accepts a coin twice (witness)"
  },
  {
   "property": "C34",
   "status": "partial",
   "theorems": [
    "Verif.Ledger.c34_coins",
    "Verif.Ledger.c34_one_shard",
    "Verif.Ledger.c34_monotone",
    "Verif.Ledger.c34_tree_partial",
    "Verif.Ledger.c34_full_tree_violated"
   ],
   "note": "coins and shards proved for all histories; a coin pushed to a full Merkle tree is accepted without a leaf (witness)"
  },
  {
   "property": "C35",
   "status": "partial",
   "theorems": [
    "Verif.Ledger.c35_applied_iff",
    "Verif.Ledger.c35_applies_partial",
    "Verif.Ledger.c35_push_partial",
    "Verif.Ledger.c35_overflow_violated",
    "Verif.Ledger.c35_overflow_wraps"
   ],
   "note": "proved when credited balances stay below 2^128; a deposit overflow panics after nullifiers and coins were recorded, or wraps (witnesses)"
  },
  {
   "property": "C36",
   "status": "proved",
   "theorems": [
    "Verif.Ledger.c36_balances",
    "Verif.Ledger.c36_not_accepted",
    "Verif.Ledger.c36_set_balance"
   ],
   "note": "release builds: credited balance assumed below 2^128"
  },
  {
   "property": "C37",
   "status": "partial",
   "theorems": [
    "Verif.Ledger.c37_prefix",
    "Verif.Ledger.c37_complete",
    "Verif.Ledger.c37_nodup",
    "Verif.Ledger.c37_initial_read_violated",
    "Verif.Ledger.c37_initial_read_exact"
   ],
   "note": "pull proved for all interleavings; initial_read starts shard i at entry i (witness and exact behaviour)"
  },
  {
   "property": "C38",
   "status": "partial",
   "theorems": [
    "Verif.Ledger.c38_violated",
    "Verif.Ledger.c38_partial",
    "Verif.Ledger.c38_submitter_credited"
   ],
   "note": "the code credits the submitter; proved when the submitter is the signed account"
  },
  {
   "property": "C39",
   "status": "partial",
   "theorems": [
    "Verif.Cipher.c39_decrypt_encrypt",
    "Verif.Cipher.c39_encrypt_decrypt",
    "Verif.Cipher.c39_block_length_violated"
   ],
   "note": "proved for every permutation, key, header and every message whose blocks have exactly the rate of the sponge; the block type admits other lengths, for which elements are dropped or the code panics (witness)"
  },
  {
   "property": "C40",
   "status": "proved",
   "theorems": [
    "Verif.Cipher.c40_verdict",
    "Verif.Cipher.c40_accept_iff",
    "Verif.Cipher.c40_forgery"
   ],
   "note": "blocks of the rate of the sponge"
  },
  {
   "property": "C41",
   "status": "partial",
   "theorems": [
    "Verif.Ceremony.c41_nonces_partial",
    "Verif.Ceremony.c41_no_replay_partial",
    "Verif.Ceremony.c41_exhausted",
    "Verif.Ceremony.c41_contributed_refused",
    "Verif.Ceremony.c41_violated"
   ],
   "note": "proved for every history without a restart; requests answered since the last completed contribution can be replayed after a restart (witness)"
  },
  {
   "property": "C42",
   "status": "partial",
   "theorems": [
    "Verif.Ceremony.c42_once_partial",
    "Verif.Ceremony.c42_all_normal",
    "Verif.Ceremony.c42_violated"
   ],
   "note": "proved for every history, restarts included, in which no query takes the high priority from its own sender; otherwise a participant can wait twice (witness)"
  },
  {
   "property": "C43",
   "status": "partial",
   "theorems": [
    "Verif.Ceremony.c43_once_partial",
    "Verif.Ceremony.c43_restart_partial",
    "Verif.Ceremony.c43_rounds",
    "Verif.Ceremony.c43_violated",
    "Verif.Ceremony.c43_restart_violated"
   ],
   "note": "proved for all interleavings of different participants without restarts, and with restarts for one contribution at a time; overlapping contributions of one participant are both counted (witness), as is a second one after a crash (witness)"
  },
  {
   "property": "C44",
   "status": "partial",
   "theorems": [
    "Verif.Ceremony.c44_exact",
    "Verif.Ceremony.c44_unchanged_partial",
    "Verif.Ceremony.c44_single_circuit",
    "Verif.Ceremony.c44_violated",
    "Verif.Ceremony.c44_breaks_transcript"
   ],
   "note": "exact effect proved; the claim holds for one circuit, or if the first circuit fails, and is false otherwise (general theorem); consequence for the transcript as a witness"
  },
  {
   "property": "C45",
   "status": "partial",
   "theorems": [
    "Verif.Ceremony.c45_exact",
    "Verif.Ceremony.c45_before_round_number",
    "Verif.Ceremony.c45_recover_partial",
    "Verif.Ceremony.c45_violated"
   ],
   "note": "exact outcome of recovery at every crash point of every history; recovery fails between the round number and the registry of every round"
  },
  {
   "property": "C46",
   "status": "proved",
   "theorems": [
    "Verif.Ceremony.c46_chain",
    "Verif.Ceremony.c46_append",
    "Verif.Ceremony.c46_first_error",
    "Verif.Ceremony.c46_commits",
    "Verif.Ceremony.c46_parallel",
    "Verif.Ceremony.c46_parallel_project",
    "Verif.Ceremony.c46_parallel_combine"
   ],
   "note": ""
  },
  {
   "property": "C47",
   "status": "proved",
   "theorems": [
    "Verif.Ceremony.Registry.c47_reload",
    "Verif.Ceremony.Registry.c47_register"
   ],
   "note": ""
  },
  {
   "property": "C48",
   "status": "proved",
   "theorems": [
    "Verif.Util.c48_all_unequal_exact",
    "Verif.Util.c48_all_unequal_nodup"
   ],
   "note": ""
  },
  {
   "property": "C49",
   "status": "proved",
   "theorems": [
    "Verif.Util.c49_chunk_by",
    "Verif.Util.c49_chunk_by_fused",
    "Verif.Util.chunksExact_spec",
    "Verif.Util.c49_padded_chunks",
    "Verif.Util.c49_padded_chunks_extra_chunk",
    "Verif.Util.vecTake_spec"
   ],
   "note": ""
  },
  {
   "property": "C50",
   "status": "proved",
   "theorems": [
    "Verif.Util.MDeque.c50_len",
    "Verif.Util.MDeque.c50_is_empty",
    "Verif.Util.MDeque.c50_get",
    "Verif.Util.MDeque.c50_front",
    "Verif.Util.MDeque.c50_pop_front",
    "Verif.Util.MDeque.c50_push_back",
    "Verif.Util.MDeque.c50_position",
    "Verif.Util.MDeque.c50_push_back_if_missing",
    "Verif.Util.MDeque.c50_fifo",
    "Verif.Util.MDeque.c50_priority"
   ],
   "note": ""
  },
  {
   "property": "C51",
   "status": "proved",
   "theorems": [
    "Verif.Transfer.c51_select_iff",
    "Verif.Transfer.c51_unique",
    "Verif.Transfer.c51_from_post",
    "Verif.Transfer.c51_check_shape",
    "Verif.Transfer.c51_new_iff"
   ],
   "note": ""
  },
  {
   "property": "C52",
   "status": "partial",
   "theorems": [
    "Verif.Sign.c52_success_partial",
    "Verif.Sign.c52_failure_partial",
    "Verif.Sign.c52_violated"
   ],
   "note": "success and failures without batching proved; a failing proof in a batch leaves unposted coins in the accumulator (witness)"
  },
  {
   "property": "C53",
   "status": "proved",
   "theorems": [
    "Verif.Codec.c15_signed_message"
   ],
   "note": ""
  },
  {
   "property": "C54",
   "status": "partial",
   "theorems": [
    "Verif.Codec.c15_post_encoding_ignores_accounts",
    "Verif.Codec.c15_post_not_injective",
    "Verif.Codec.c54_post_partial",
    "Verif.Codec.c15_body"
   ],
   "note": "the code violates the claim: sink accounts are not encoded; proved that the bytes are equal exactly when signature and body are"
  },
  {
   "property": "C55",
   "status": "proved",
   "theorems": [
    "Verif.Wallet.c55_coins"
   ],
   "note": "assumes honest ledger data (Ledger): opened notes reconstruct their UTXO, no coin listed twice, nullifiers and leaves of distinct coins differ"
  },
  {
   "property": "C56",
   "status": "partial",
   "theorems": [
    "Verif.Wallet.c56_balances",
    "Verif.Wallet.c56_full_agrees",
    "Verif.Wallet.c56_pruned_partial",
    "Verif.Wallet.c56_behind_violated"
   ],
   "note": "proved for a wallet and signer that start together; a wallet behind its signer can end with a wrong balance (witness)"
  },
  {
   "property": "C57",
   "status": "partial",
   "theorems": [
    "Verif.Wallet.c57_checkpoint",
    "Verif.Wallet.c57_sbt_partial",
    "Verif.Wallet.c57_sbt_violated",
    "Verif.Wallet.c57_failed_violated"
   ],
   "note": "proved for sync; a sync that fails in normalization has moved the signer (witness); sbt_sync counts already known UTXOs again when the request is trimmed (witness)"
  },
  {
   "property": "C58",
   "status": "partial",
   "theorems": [
    "Verif.Sign.c58_request_partial",
    "Verif.Sign.c58_consolidate",
    "Verif.Sign.c58_refused",
    "Verif.Sign.c58_zero_first_accepted"
   ],
   "note": "proved for coins with nonzero asset id under the assumptions of C27, except that the code admits a first coin of value zero (witness)"
  },
  {
   "property": "C59",
   "status": "partial",
   "theorems": [
    "Verif.Ledger.c59_invalid_proof_accepted",
    "Verif.Ledger.c59_partial",
    "Verif.Ledger.c59_checked"
   ],
   "note": "the code drops the answer of the verifier (witness); errors of the verifier are rejected"
  },
  {
   "property": "C60",
   "status": "proved",
   "theorems": [
    "Verif.Transfer.c60_same_coin_same_nullifier",
    "Verif.Transfer.c60_different_coins_different_nullifiers",
    "Verif.Transfer.c60_same_coin_same_value",
    "Verif.Transfer.c60_created_then_spent"
   ],
   "note": "by collision extraction, no assumption on the hash functions"
  },
  {
   "property": "C61",
   "status": "proved",
   "theorems": [
    "Verif.Transfer.c61_honest_satisfies",
    "Verif.Transfer.c61_empty_opaque_rejected"
   ],
   "note": "empty opaque assets are excluded (rejected by the circuit, c61_empty_opaque_rejected)"
  },
  {
   "property": "C62",
   "status": "proved",
   "theorems": [
    "Verif.Transfer.c62_signature",
    "Verif.Transfer.c62_derived",
    "Verif.Transfer.c62_post_valid",
    "Verif.Transfer.c62_accounts_dropped"
   ],
   "note": "for transfers without sinks into_post drops the account list that was signed, so the post is valid only if the list was empty (c62_accounts_dropped)"
  },
  {
   "property": "C63",
   "status": "partial",
   "theorems": [
    "Verif.Transfer.c63_opaque_recovered_partial",
    "Verif.Transfer.c63_transparent_violated",
    "Verif.Transfer.c63_other_partition",
    "Verif.Transfer.c63_check_sound",
    "Verif.Transfer.c63_nullifier_opens",
    "Verif.Transfer.c63_published"
   ],
   "note": "opaque coins proved; a transparent coin is never recovered by its owner (violated)"
  },
  {
   "property": "C64",
   "status": "partial",
   "theorems": [
    "Verif.Merkle.c64_partial",
    "Verif.Merkle.c64_vec_violated",
    "Verif.Merkle.c64_removed_path",
    "Verif.Merkle.c64_listing",
    "Verif.Merkle.c64_listing_violated"
   ],
   "note": "proved for map-like leaf stores; with LeafVec a pruned leaf is still reported (witness), and a path is answered for dropped leaves (witness)"
  },
  {
   "property": "C65",
   "status": "partial",
   "theorems": [
    "Verif.Ledger.c65_no_inflation_partial",
    "Verif.Ledger.c65_bounded_partial",
    "Verif.Ledger.c65_violated"
   ],
   "note": "proved for every history whose accepted posts are backed by satisfying assignments, with sound accumulator and without collisions; without the first assumption false, because the ledger drops the verdict of the proof verifier (witness)"
  },
  {
   "property": "C66",
   "status": "partial",
   "theorems": [
    "Verif.Merkle.c66_contained_proved",
    "Verif.Merkle.c66_stays",
    "Verif.Merkle.c66_forest",
    "Verif.Merkle.c66_forest_stays",
    "Verif.Merkle.c66_forked_proved",
    "Verif.Merkle.c66_forked_wanted",
    "Verif.Merkle.c66_vec_violated",
    "Verif.Merkle.c66_remove_committed_panics",
    "Verif.Merkle.c66_remove_violated"
   ],
   "note": "Proved for partial trees, one at a time and routed in a forest, with map-like or trivial stores after single insertions, removals and prunes, and for forked trees without removals. LeafVec answers wrong proofs after pruning (witness). Removing the proof of a committed leaf of a forked tree always underflows (general theorem and witness)."
  },
  {
   "property": "C67",
   "status": "partial",
   "theorems": [
    "Verif.Cipher.c67_incoming_partial",
    "Verif.Cipher.c67_light_panics_iff",
    "Verif.Cipher.c67_light_violated",
    "Verif.Cipher.c67_outgoing_violated",
    "Verif.Cipher.c67_sender_crashes_receiver"
   ],
   "note": "proved for circuit-bound notes; light and outgoing notes panic exactly on unreduced field bytes, and whoever knows an address can make such a note for it"
  },
  {
   "property": "C68",
   "status": "proved",
   "theorems": [
    "Verif.Cipher.c68_incoming",
    "Verif.Cipher.c68_key_injective",
    "Verif.Cipher.c68_incoming_canonical",
    "Verif.Cipher.c68_light",
    "Verif.Cipher.c68_light_injective",
    "Verif.Cipher.c68_light_canonical",
    "Verif.Cipher.c68_outgoing",
    "Verif.Cipher.c68_outgoing_canonical",
    "Verif.Cipher.c68_kit_correct",
    "Verif.Cipher.c68_coin_recovered"
   ],
   "note": "AES-GCM is a parameter with its correctness and length laws"
  },
  {
   "property": "C69",
   "status": "partial",
   "theorems": [
    "Verif.Cipher.c69_framing_partial",
    "Verif.Cipher.c69_framing_violated"
   ],
   "note": "proved for fixed lengths; across lengths the zero padding is ambiguous (identity for all inputs of the given form)"
  },
  {
   "property": "C70",
   "status": "partial",
   "theorems": [
    "Verif.Ledger.c70_signed_partial",
    "Verif.Ledger.c70_incoming_bound_partial",
    "Verif.Ledger.c70_mint_notes_violated",
    "Verif.Ledger.c70_coin_hidden_violated"
   ],
   "note": "holds for signed posts up to forging signatures and for incoming notes up to the proof; false for light notes and partitions of unsigned posts (mints): general theorem"
  },
  {
   "property": "C71",
   "status": "partial",
   "theorems": [
    "Verif.Ceremony.c71_keep_partial",
    "Verif.Ceremony.c71_violated"
   ],
   "note": "proved for every event except the last step of a contribution, which always evicts the current holder (general theorem)"
  },
  {
   "property": "C72",
   "status": "proved",
   "theorems": [
    "Verif.Ceremony.c72_file_names",
    "Verif.Ceremony.c72_special"
   ],
   "note": ""
  },
  {
   "property": "C73",
   "status": "partial",
   "theorems": [
    "Verif.Ceremony.c73_message_partial",
    "Verif.Ceremony.c73_violated"
   ],
   "note": "proved for accounts without a comma; false otherwise (witness)"
  },
  {
   "property": "C74",
   "status": "proved",
   "theorems": [
    "Verif.Setup.c74_made",
    "Verif.Setup.c74_accepted",
    "Verif.Setup.c74_ceremony"
   ],
   "note": "discrete logarithm representation of prime order groups; the hash to the group is any function"
  },
  {
   "property": "C75",
   "status": "partial",
   "theorems": [
    "Verif.Setup.c75_factor_partial",
    "Verif.Setup.c75_random_check",
    "Verif.Setup.c75_sound_partial",
    "Verif.Setup.c75_violated"
   ],
   "note": "proved for proofs whose ratio is not the identity; identity points are accepted, and with them anyone can replace the product of all secrets by a secret of their own after any ceremony (general theorem). Negligible part: for a wrong element at most one value of its coefficient is accepted"
  },
  {
   "property": "C76",
   "status": "partial",
   "theorems": [
    "Verif.Setup.c76_steps_batch",
    "Verif.Setup.c76_batch_sound_partial",
    "Verif.Setup.c76_intermediate_violated"
   ],
   "note": "acceptance of all steps implies acceptance of the whole for nonzero keys; the final state is sound for non-identity proofs; the converse is false, the states in between are not checked (general theorem)"
  },
  {
   "property": "C77",
   "status": "proved",
   "theorems": [
    "Verif.Setup.c77_update",
    "Verif.Setup.c77_closed_form",
    "Verif.Setup.c77_accepted"
   ],
   "note": ""
  },
  {
   "property": "C78",
   "status": "proved",
   "theorems": [
    "Verif.Setup.c78_sound",
    "Verif.Setup.c78_random_check",
    "Verif.Setup.c78_unchecked_proof"
   ],
   "note": "for all coefficients; for a wrong power at most one value of its coefficient is accepted. Identity points are kept out by deserialization, without which the claim is false (last theorem)"
  },
  {
   "property": "C79",
   "status": "proved",
   "theorems": [
    "Verif.Poseidon.c79_inverse",
    "Verif.Poseidon.c79_is_invertible"
   ],
   "note": ""
  },
  {
   "property": "C80",
   "status": "partial",
   "theorems": [
    "Verif.Poseidon.c80_square_partial",
    "Verif.Poseidon.c80_matmul_check",
    "Verif.Poseidon.c80_shapes_violated",
    "Verif.Poseidon.c80_new",
    "Verif.Poseidon.c80_tests",
    "Verif.Poseidon.c80_tests_square",
    "Verif.Poseidon.c80_minor",
    "Verif.Poseidon.c80_minor_exists",
    "Verif.Poseidon.c80_row_major"
   ],
   "note": "products proved for square matrices, the rest for all; the shape checks compare the wrong numbers otherwise (witnesses)"
  },
  {
   "property": "C81",
   "status": "proved",
   "theorems": [
    "Verif.Poseidon.c81_mds"
   ],
   "note": "characteristic zero or at least three times the width"
  },
  {
   "property": "C82",
   "status": "partial",
   "theorems": [
    "Verif.Poseidon.c82_derive_partial",
    "Verif.Poseidon.c82_chain_partial",
    "Verif.Poseidon.c82_generated",
    "Verif.Poseidon.c82_violated"
   ],
   "note": "proved if the lower right block is symmetric, which holds for all generated matrices; false for other matrices (witness)"
  },
  {
   "property": "C83",
   "status": "proved",
   "theorems": [
    "Verif.Poseidon.c83_optimized",
    "Verif.Poseidon.c83_generated",
    "Verif.Poseidon.c83_odd_violated"
   ],
   "note": "for symmetric matrices, in particular the generated ones; for an odd number of full rounds the key of the last round is dropped (witness)"
  },
  {
   "property": "C84",
   "status": "proved",
   "theorems": [
    "Verif.Poseidon.c84_spec",
    "Verif.Poseidon.c84_bijective",
    "Verif.Poseidon.c84_generated",
    "Verif.Poseidon.c84_sbox",
    "Verif.Poseidon.c84_sbox_bn254",
    "Verif.Poseidon.c84_hash",
    "Verif.Poseidon.c84_codec",
    "Verif.Poseidon.c84_no_full_rounds_violated"
   ],
   "note": "at least two full rounds; with fewer, round 0 is run twice (witness)"
  },
  {
   "property": "C85",
   "status": "partial",
   "theorems": [
    "Verif.Poseidon.c85_next",
    "Verif.Poseidon.c85_constants_partial",
    "Verif.Poseidon.c85_separation_partial",
    "Verif.Poseidon.c85_separation_violated",
    "Verif.Poseidon.c85_zero_violated"
   ],
   "note": "termination of the bit generator is proved (at most 118 iterations per bit); termination of rejection sampling is not (it depends on the numbers); separation holds for parameters within the widths of the seed fields, larger ones are cut (witness)"
  },
  {
   "property": "C86",
   "status": "proved",
   "theorems": [
    "Verif.Ledger.c86_known_root",
    "Verif.Ledger.c86_unknown_root",
    "Verif.Ledger.c86_signed",
    "Verif.Ledger.c86_signature_error"
   ],
   "note": ""
  },
  {
   "property": "C87",
   "status": "partial",
   "theorems": [
    "Verif.Fs.c87_roundtrip_partial",
    "Verif.Fs.c87_file_partial",
    "Verif.Fs.c87_file_outcome",
    "Verif.Fs.c87_format",
    "Verif.Fs.c87_injective",
    "Verif.Fs.c87_file_length",
    "Verif.Fs.c87_lost_violated"
   ],
   "note": "proved for all values except units wrapped in options or variants as the whole value: these are reported as saved, but nothing is written and they do not load (general theorem)"
  },
  {
   "property": "C88",
   "status": "partial",
   "theorems": [
    "Verif.Fs.c88_seeds_partial",
    "Verif.Fs.c88_nonce_violated",
    "Verif.Fs.c88_leak_violated"
   ],
   "note": "false for the code: seed and nonce are constant, and the difference of any two plaintext blocks is public (general theorems); what is proved is that nonces differ for seeds that the generator separates"
  },
  {
   "property": "C89",
   "status": "partial",
   "theorems": [
    "Verif.Fs.c89_blocks_partial",
    "Verif.Fs.c89_damaged_partial",
    "Verif.Fs.c89_wrong_password_partial",
    "Verif.Fs.c89_splice_violated",
    "Verif.Fs.c89_panic_violated"
   ],
   "note": "every block that is read was sealed under the key, if the cipher cannot be forged; blocks can be moved between files (general theorem), and a damaged length panics"
  },
  {
   "property": "C90",
   "status": "partial",
   "theorems": [
    "Verif.Fs.c90_outcomes_partial",
    "Verif.Fs.c90_violated"
   ],
   "note": "never a third value; but from opening the file to the last block nothing can be loaded (general theorem)"
  },
  {
   "property": "C91",
   "status": "partial",
   "theorems": [
    "Verif.Transfer.c91_accept_iff",
    "Verif.Transfer.c91_errors",
    "Verif.Transfer.c91_complete",
    "Verif.Transfer.c91_panics",
    "Verif.Transfer.c91_owner_partial",
    "Verif.Transfer.c91_forged_violated",
    "Verif.Transfer.c91_pay_iff",
    "Verif.Transfer.c91_forged_pay_violated"
   ],
   "note": "honest proofs are accepted; soundness only if the coin that names the output has value: the circuit skips the membership check for coins without value, so anybody can make an accepted proof for any address (general theorem)"
  },
  {
   "property": "C92",
   "status": "proved",
   "theorems": [
    "Verif.Transfer.c92_sound",
    "Verif.Transfer.c92_kind",
    "Verif.Transfer.c92_complete",
    "Verif.Transfer.c92_check",
    "Verif.Transfer.c92_address"
   ],
   "note": ""
  },
  {
   "property": "C93",
   "status": "proved",
   "theorems": [
    "Verif.Setup.c93_key",
    "Verif.Setup.c93_result",
    "Verif.Setup.c93_limit_violated",
    "Verif.Setup.c93_qap",
    "Verif.Setup.c93_inputs",
    "Verif.Setup.c93_proof_iff",
    "Verif.Setup.c93_complete",
    "Verif.Setup.c93_wrong_assignment",
    "Verif.Setup.c93_ceremonies"
   ],
   "note": "for circuits whose domain is smaller than the number of powers in the second group; a circuit that needs all of them panics (general theorem). Groth16 itself is the published equations"
  },
  {
   "property": "C94",
   "status": "partial",
   "theorems": [
    "Verif.Sign.c94_exact_partial",
    "Verif.Sign.c94_underflow_violated",
    "Verif.Sign.c94_zero_violated",
    "Verif.Sign.c94_public"
   ],
   "note": "exact for everything that can be signed, except private transfers of value zero; there, and for more than the balance, the subtraction underflows (general theorem)"
  },
  {
   "property": "C95",
   "status": "proved",
   "theorems": [
    "Verif.Sign.c95_post",
    "Verif.Sign.c95_never_panics",
    "Verif.Sign.c95_exact"
   ],
   "note": ""
  },
  {
   "property": "C96",
   "status": "partial",
   "theorems": [
    "Verif.Accounts.c96_paths",
    "Verif.Accounts.c96_networks",
    "Verif.Accounts.c96_standard",
    "Verif.Accounts.c96_keys_partial",
    "Verif.Accounts.c96_indices",
    "Verif.Accounts.c96_stable",
    "Verif.Accounts.c96_same_keys_violated",
    "Verif.Accounts.c96_limit"
   ],
   "note": "paths determine coin and account and indices are fresh; but the account map stores the default index for every account, so all accounts have the keys of the default account (general theorem)"
  },
  {
   "property": "C97",
   "status": "partial",
   "theorems": [
    "Verif.Wallet.c97_restored",
    "Verif.Wallet.c97_fresh",
    "Verif.Wallet.c97_locked",
    "Verif.Wallet.c97_clone_partial",
    "Verif.Wallet.c97_clone_violated",
    "Verif.Wallet.c97_clone_recovers"
   ],
   "note": "storing and unlocking keep the state; a copy forgets the number of nullifiers, so after any history with a nullifier its next synchronization fails and the ledger is read again (general theorem)"
  },
  {
   "property": "C98",
   "status": "proved",
   "theorems": [
    "Verif.Wallet.c98_restart"
   ],
   "note": ""
  },
  {
   "property": "C99",
   "status": "proved",
   "theorems": [
    "Verif.Wallet.c99_initial",
    "Verif.Wallet.c99_panics_iff"
   ],
   "note": "nullifiers stored before the initial synchronization are kept, the formula shows them"
  }
 ]
}