{"claims": [
  {"property": "C01", "status": "proved", "theorems": ["Verif.C01_varuint_roundtrip", "Verif.C01_int", "Verif.C01_int_exact"], "note": ""},
  {"property": "C02", "status": "proved", "theorems": ["Verif.C02_varuint_total", "Verif.C02_varuint_shortest"], "note": ""},
  {"property": "C03", "status": "proved", "theorems": ["Verif.C03_roundtrip", "Verif.C03_accepts", "Verif.C03_named", "Verif.C03_fixed", "Verif.C03_var"], "note": ""},
  {"property": "C04", "status": "proved", "theorems": ["Verif.C04_acceptable"], "note": ""},
  {"property": "C05", "status": "proved", "theorems": ["Verif.C05_truncation", "Verif.C05_truncation_fields"], "note": "C05_truncation covers also Bits, transactions and outpoints."},
  {"property": "C06", "status": "partial", "theorems": ["Verif.C06_refuted", "Verif.C06_refuted_trailing", "Verif.C06_canonical_partial", "Verif.C06_exact_partial"], "note": "The claim is false of the code: over-long varuints and trailing bytes are accepted. Proved: the refutations, and that whatever is accepted is at least as long as the canonical encoding, with equality only for the canonical encoding."},
  {"property": "C07", "status": "proved", "theorems": ["Verif.C07_fields_unambiguous", "Verif.C07_fields_roundtrip"], "note": ""},
  {"property": "C08", "status": "proved", "theorems": ["Verif.C08_tagged_domain_separation", "Verif.C08_derive_length", "Verif.C08_derive_separation", "Verif.C08_derive_domain"], "note": "Up to a hash collision on the two named strings."},
  {"property": "C09", "status": "proved", "theorems": ["Verif.C09_constructible_wf", "Verif.C09_iter", "Verif.C09_of_iterable", "Verif.C09_getitem", "Verif.C09_from_bytes"], "note": ""},
  {"property": "C10", "status": "proved", "theorems": ["Verif.C10_eq"], "note": ""},
  {"property": "C11", "status": "proved", "theorems": ["Verif.C11_add"], "note": ""},
  {"property": "C12", "status": "proved", "theorems": ["Verif.C12_invert", "Verif.C12_invert_invert"], "note": ""},
  {"property": "C13", "status": "proved", "theorems": ["Verif.C13_slice", "Verif.Bits.C13_meaning", "Verif.Bits.C13_reverse", "Verif.Bits.C13_between"], "note": "C13_slice compares with slicing the list of bits; C13_meaning says what that is after the language reference."},
  {"property": "C14", "status": "proved", "theorems": ["Verif.C14_startswith"], "note": ""},
  {"property": "C15", "status": "proved", "theorems": ["Verif.C15_common_prefix", "Verif.C15_common_prefix_comm"], "note": ""},
  {"property": "C16", "status": "partial", "theorems": ["Verif.C16_refuted", "Verif.C16_same_length_partial", "Verif.C16_order_partial", "Verif.C16_derived_partial", "Verif.C16_incomparable_partial"], "note": "The claim is false of the code (two different Bits, neither less than the other). Proved: the refutation, lexicographic order at equal lengths, and which order it is in general."},
  {"property": "C17", "status": "proved", "theorems": ["Verif.C17_serialize_canonical"], "note": ""},
  {"property": "C18", "status": "partial", "theorems": ["Verif.C18_refuted", "Verif.C18_roundtrip_partial"], "note": "The claim is false of the code (empty Bits raises IndexError, whole-byte Bits with a non-zero last byte raises AssertionError). Proved: the refutation and exactly when the round trip works."},
  {"property": "C19", "status": "proved", "theorems": ["Verif.C19_is_its_list", "Verif.C19_append_total", "Verif.C19_extend_total"], "note": ""},
  {"property": "C20", "status": "proved", "theorems": ["Verif.C20_getitem"], "note": ""},
  {"property": "C21", "status": "partial", "theorems": ["Verif.C21_refuted", "Verif.C21_slice_partial", "Verif.C21_exact_partial", "Verif.C21_steps_partial"], "note": "The claim is false of the code: m[2:1] on four items returns [m[2]] instead of nothing. Proved: the refutation; the claim for every slice whose normalised start does not exceed its stop; for all other slices with step 1 exactly which items are returned (C21_exact_partial, SliceEnd), and that other steps are not implemented."},
  {"property": "C22", "status": "proved", "theorems": ["Verif.C22_documented", "Verif.C22_canonical", "Verif.C22_split_unique"], "note": ""},
  {"property": "C23", "status": "proved", "theorems": ["Verif.C23_is_perfect_tree"], "note": ""},
  {"property": "C24", "status": "proved", "theorems": ["Verif.C24_binding", "Verif.C24_binding_lists"], "note": "Provided SHA-256 does not collide on the explicitly listed strings."},
  {"property": "C25", "status": "proved", "theorems": ["Verif.C25_depth", "Verif.C25_reuse"], "note": ""},
  {"property": "C26", "status": "proved", "theorems": ["Verif.C26_dict"], "note": "All histories of put/remove calls that return; keys are those passing check_instance, with prefix-free key2prefix."},
  {"property": "C27", "status": "partial", "theorems": ["Verif.C27_refuted", "Verif.C27_put_partial"], "note": "False for keys already present: put raises AssertionError there (always). Proved for absent keys."},
  {"property": "C28", "status": "proved", "theorems": ["Verif.C28_history_independent", "Verif.C28_of_pairs"], "note": ""},
  {"property": "C29", "status": "proved", "theorems": ["Verif.C29_iteration"], "note": "len for fewer than 2^63 entries (CPython's __len__ limit)."},
  {"property": "C30", "status": "proved", "theorems": ["Verif.C30_remove_put", "Verif.C30_put_remove"], "note": ""},
  {"property": "C31", "status": "proved", "theorems": ["Verif.C31_issubset"], "note": "Under no SHA-256 collision among the listed strings hashed for the two trees and the empty node."},
  {"property": "C32", "status": "proved", "theorems": ["Verif.C32_layout", "Verif.C26_dict"], "note": "C26_dict: put of a fresh key and remove never raise AssertionError."},
  {"property": "C33", "status": "proved", "theorems": ["Verif.C33_binding", "Verif.C33_binding_dicts"], "note": ""},
  {"property": "C34", "status": "proved", "theorems": ["Verif.C34_hash_is_stable", "Verif.C34_eq_is_stable"], "note": "For all collections of classes, hash functions, reachable states and objects: hash and == give the same before and after any steps (construct, prune, read, hash, serialize, deserialize). hash() is a function of .hash, not modelled separately."},
  {"property": "C35", "status": "proved", "theorems": ["Verif.C35_prune_is_transparent"], "note": "Same hash, ==, and the same result of every computation on the view and on the original, whatever is done in between."},
  {"property": "C36", "status": "proved", "theorems": ["Verif.C36_fresh", "Verif.C36_reveals_what_was_read", "Verif.C36_after_running"], "note": "Tracks the set of sub-proofs read through, for any interleaving of reads with other steps."},
  {"property": "C37", "status": "partial", "theorems": ["Verif.C37_statement", "Verif.C37_refuted", "Verif.C37_ship_and_verify_again_partial", "Verif.C37_variant_lost_partial", "Verif.C37_tx_lost_partial", "Verif.C37_unread_partial"], "note": "False in general: a VarProof left pruned is sent without its variant number and a pruned TxProof cannot be hashed at the receiver (C37_refuted has the first). Proved for all computations and proofs where nothing left pruned is a VarProof or TxProof. The others: variant_lost_partial - whenever an attribute declared as VarProof is left pruned, deserialization fails at every receiver; tx_lost_partial - if no VarProof but a TxProof is left pruned, what was read arrives but has no hash (TypeError); unread_partial - if nothing of the proof itself was read, which hash the receiver sees. Missing: members of a ProofUnion that are VarProofs and attributes declared with a variant itself; neither occurs in the repository."},
  {"property": "C38", "status": "proved", "theorems": ["Verif.C38_round_trip"], "note": "The plain values must serialize reversibly (PrimTy.RoundTrips), which C18 and C42 characterize."},
  {"property": "C39", "status": "proved", "theorems": ["Verif.C39_hash_binds_content", "Verif.C39_received", "Verif.classes_int_binds", "Verif.testClasses_binds"], "note": "Assumes that SHA-256 has no collision among the listed strings hashed for the two proofs. Declared attributes are assumed for constructed proofs (the constructor does not check them, C62), and proved for received ones."},
  {"property": "C40", "status": "proved", "theorems": ["Verif.C40_no_contradiction", "Verif.C40_received"], "note": "As C39, for every computation."},
  {"property": "C41", "status": "partial", "theorems": ["Verif.C41_statement", "Verif.C41_refuted", "Verif.C41_bad_number_partial"], "note": "False of the code: proof.py does not import DeserializationError, so NameError is raised. Proved: always an error, always NameError."},
  {"property": "C42", "status": "proved", "theorems": ["Verif.Btc.C42_tx_roundtrip", "Verif.Btc.C42_txin_roundtrip", "Verif.Btc.C42_txout_roundtrip", "Verif.Btc.C42_outpoint_roundtrip", "Verif.Btc.C42_tx_serializes", "Verif.Btc.C42_outpoint_serializes", "Verif.C42_limit"], "note": ""},
  {"property": "C43", "status": "proved", "theorems": ["Verif.Btc.C43_tx_injective", "Verif.Btc.C43_txin_injective", "Verif.Btc.C43_txout_injective", "Verif.Btc.C43_tx_trailing_truncated", "Verif.Btc.C43_outpoint_trailing_truncated"], "note": ""},
  {"property": "C44", "status": "proved", "theorems": ["Verif.Btc.C44_outpoint_eq"], "note": ""},
  {"property": "C45", "status": "proved", "theorems": ["Verif.Seal.C45_txhash_is_txid", "Verif.Seal.C45_hash_and_txhash", "Verif.Seal.C45_received_pruned", "Verif.Seal.C45_pad"], "note": "For every TxProof of a serializable transaction in any reachable state, pruned or not. The third theorem adds what holds of a TxProof received fully pruned."},
  {"property": "C46", "status": "proved", "theorems": ["Verif.Seal.C46_scripts", "Verif.Seal.C46_one_digest", "Verif.Seal.C46_accepts_one"], "note": "Scripts built through the model of CScript.__new__; Hash160 collision-freeness is assumed only for the two digests compared."},
  {"property": "C47", "status": "proved", "theorems": ["Verif.Seal.C47_sound", "Verif.Seal.C47_complete", "Verif.Seal.C47_one_transaction"], "note": "Sound and complete: verify() and verify_hash(h) succeed exactly if the witness shows the claim. Both run on the heap of proof objects, so also for pruned views and received witnesses."},
  {"property": "C48", "status": "proved", "theorems": ["Verif.Seal.C48_template", "Verif.Seal.C48_honest_closing"], "note": "mkwitness's procedure on a completed transaction, then verification, then serialization and verification by the receiver. The seals' outpoints are distinct (see C57)."},
  {"property": "C49", "status": "partial", "theorems": ["Verif.Seal.C49_statement", "Verif.Seal.C49_refuted", "Verif.Seal.C49_same_output_partial", "Verif.Seal.C49_one_commitment_partial"], "note": "False of the code: one transaction may have several committing outputs. Proved: witnesses that show outputs with the same script, or about a transaction with one committing output, agree, unless Hash160 collides on the two hashes."},
  {"property": "C50", "status": "proved", "theorems": ["Verif.Seal.C50_exact", "Verif.Seal.C50_binding"], "note": "Any state, any later time. SHA-256 collision-freeness only on the four strings hashed."},
  {"property": "C51", "status": "proved", "theorems": ["Verif.Seal.C51_txin", "Verif.Seal.C51_txout"], "note": "Indexes are those a proof can have (the constructor requires uint32)."},
  {"property": "C52", "status": "proved", "theorems": ["Verif.GuMap.C52_leaf", "Verif.GuMap.C52_inner", "Verif.GuMap.C52_leaf_total", "Verif.GuMap.C52_inner_total"], "note": "Any reachable state, any later time, any maker that returns witnesses of the seal for the hash (fakeMaker_honest and btcMaker_honest are instances); keys and values may be plain values or proofs."},
  {"property": "C53", "status": "proved", "theorems": ["Verif.GuMap.C53_from_children", "Verif.GuMap.C53_total", "Verif.GuMap.C53_replace"], "note": "Any children, at any later time. Keys that are proofs have no prefix in the model (key2prefix is a function of plain keys)."},
  {"property": "C54", "status": "proved", "theorems": ["Verif.GuMap.C54_agree"], "note": "Full verification is verify() of every node plus verify() of every Bitcoin witness. Collision-freeness only on the strings hashed for seals and contents of the two maps; uniqueness of Bitcoin seals is a hypothesis about the two maps (C49 says what the code gives)."},
  {"property": "C55", "status": "partial", "theorems": ["Verif.GuMap.C55_statement", "Verif.GuMap.C55_refuted", "Verif.GuMap.C55_placed_partial"], "note": "False of the code: prefixes of children are never checked, so one key may occur twice. Proved: if every child's prefix goes on on its side, keys are unique."},
  {"property": "C56", "status": "partial", "theorems": ["Verif.Sus.C56_mkseal_partial", "Verif.Sus.C56_refuted"], "note": "False of the code: BitcoinSingleUseSeal is instantiated without its nonce, so mkseal always ends in KeyError. C56_refuted proves the full statement C56_statement false; C56_mkseal_partial gives the exact behaviour for every argument and file system: no existing file is altered, and an empty file is left behind."},
  {"property": "C57", "status": "partial", "theorems": ["Verif.Sus.C57_mkclosetx_partial", "Verif.Sus.C57_refuted"], "note": "False of the code: seals are compared by hash, so two seals with the same outpoint and different nonces are accepted and the outpoint is spent twice (C57_refuted, on two concrete files). C57_mkclosetx_partial: one input per file, in order, the seals have different hashes, one output that commits to the digest, nothing printed on an error, and success whenever the files hold seals with different hashes."},
  {"property": "C58", "status": "proved", "theorems": ["Verif.Sus.C58_mkwitness"], "note": "For every file system, list of files, transaction and node answer, whatever error stops the command."},
  {"property": "C59", "status": "partial", "theorems": ["Verif.Sus.C59_verifywitness_partial", "Verif.Sus.C59_digest_partial", "Verif.Sus.C59_refuted"], "note": "False of the code: --seal-file and --seal-id are ignored (C59_refuted). C59_verifywitness_partial characterizes success exactly; C59_digest_partial spells it out for a digest: the file holds a complete witness that shows the seal closed over the digest."},
  {"property": "C60", "status": "partial", "theorems": ["Verif.Sus.C60_sealinfo_partial", "Verif.Sus.C60_witnessinfo_partial", "Verif.Sus.C60_refuted"], "note": "True for sealinfo (C60_sealinfo_partial). False for witnessinfo, which prints the bytes of the hash in the wrong order (C60_refuted); C60_witnessinfo_partial says exactly which outpoint its text denotes."},
  {"property": "C61", "status": "partial", "theorems": ["Verif.C61_refuted", "Verif.C61_never_partial"], "note": "False: __contains__ raises NotImplementedError for every tree and key."},
  {"property": "C62", "status": "partial", "theorems": ["Verif.C62_statement", "Verif.C62_refuted", "Verif.C62_constructor_checks_partial"], "note": "False of the code: Proof.check_instance checks nothing. The partial theorem says exactly what is checked."},
  {"property": "C63", "status": "proved", "theorems": ["Verif.C63_accepts_canonical"], "note": "Every byte string. The length may be written in a longer way than serialize does (C02 says which)."},
  {"property": "C64", "status": "proved", "theorems": ["Verif.Mmr.C64_new", "Verif.Mmr.C64_kept", "Verif.Mmr.C64_prune", "Verif.Mmr.C64_append", "Verif.Mmr.C64_len", "Verif.Mmr.C64_getitem", "Verif.Mmr.C64_iter", "Verif.Mmr.C64_hash"], "note": "For every value serializer, class table and heap state; mmr.py modelled on proof objects (Model/MmrProof.lean). Lists shorter than 2^63, the limit of len()."},
  {"property": "C65", "status": "proved", "theorems": ["Verif.Mmr.C65_lengths", "Verif.Mmr.C65_items", "Verif.Mmr.C65_within_length", "Verif.Mmr.C65_received", "Verif.Mmr.C65_classes"], "note": "For arbitrary, also lying, trees with equal hash, constructed or received, in two programs. Assumes that the strings hashed for the two trees do not collide and that class tags are different."},
  {"property": "C66", "status": "partial", "theorems": ["Verif.Mmr.C66_statement", "Verif.Mmr.C66_refuted", "Verif.Mmr.C66_never_arrives_partial", "Verif.Mmr.C66_one_item_partial", "Verif.Mmr.C66_one_proof_partial", "Verif.Mmr.C66_one_variant_partial", "Verif.Mmr.C66_one_tx_partial"], "note": "False of the code: C66_never_arrives_partial proves that with two items or more the serialized view is rejected by every receiver, whatever the index; C66_one_item_partial that it works for one item of a primitive type; C66_one_proof_partial and C66_one_variant_partial that one item which is a proof arrives as a pruned proof with the same hash, unless it is declared to be a VarProof, in which case nobody can read what is sent. If the one item is a TxProof, it arrives but nothing that arrived has a hash (C66_one_tx_partial). Missing: nothing but what is refuted."},
  {"property": "C67", "status": "proved", "theorems": ["Verif.Btc.C67_raw_iter", "Verif.Btc.C67_any_bytes", "Verif.Btc.C67_unambiguous", "Verif.Btc.C67_is_valid"], "note": "For all byte strings."},
  {"property": "C68", "status": "proved", "theorems": ["Verif.Btc.C68_build_iterate", "Verif.Btc.C68_iterate_build", "Verif.Btc.C68_add"], "note": "For all lists of items; items that do not fit (2^32 bytes or more, push opcodes as operations) are excluded by Item.Fits."},
  {"property": "C69", "status": "proved", "theorems": ["Verif.Btc.C69_is_push_only"], "note": "For all byte strings."},
  {"property": "C70", "status": "partial", "theorems": ["Verif.Btc.C70_statement", "Verif.Btc.C70_refuted", "Verif.Btc.C70_minus_one_accepted", "Verif.Btc.C70_canonical_partial"], "note": "False of the code: it rejects the shortest push of the byte 0 and accepts a push of 0x81, for which 0x4f is shorter. C70_canonical_partial says exactly which scripts it accepts."},
  {"property": "C71", "status": "proved", "theorems": ["Verif.Btc.C71_bn2vch", "Verif.Btc.C71_vch2bn", "Verif.Btc.C71_roundtrip"], "note": "For all integers and all byte strings of less than 2^32 bytes."},
  {"property": "C72", "status": "partial", "theorems": ["Verif.Btc.C72_statement", "Verif.Btc.C72_refuted", "Verif.Btc.C72_empty_deletes_all", "Verif.Btc.C72_one_operation_partial", "Verif.Btc.C72_invalid_partial", "Verif.Btc.C72_any_partial"], "note": "False of the code: multi-operation patterns, the empty pattern and invalid scripts are treated differently. C72_any_partial with C72_invalid_partial says exactly what it does on every input; C72_one_operation_partial that it is right for one-operation patterns on valid scripts."},
  {"property": "C73", "status": "partial", "theorems": ["Verif.Btc.C73_statement", "Verif.Btc.C73_refuted", "Verif.Btc.C73_valid_partial", "Verif.Btc.C73_invalid_partial"], "note": "False of the code: accurate counting of a counted multisig raises AttributeError, and invalid scripts raise. The two partial theorems say what happens on every input."},
  {"property": "C74", "status": "proved", "theorems": ["Verif.Btc.C74_is_p2sh", "Verif.Btc.C74_to_p2sh", "Verif.Btc.C74_binding"], "note": "Binding assumes that the hashes of the two scripts do not collide."},
  {"property": "C75", "status": "partial", "theorems": ["Verif.Btc.C75_statement", "Verif.Btc.C75_refuted", "Verif.Btc.C75_mutable_partial", "Verif.Btc.C75_immutable_partial", "Verif.Btc.C75_outpoint_partial"], "note": "False of the code: immutable copies of transactions with a mutable input raise AttributeError. The partial theorems say exactly which copies work. Object identity is not modelled."},
  {"property": "C76", "status": "proved", "theorems": ["Verif.Btc.C76_message", "Verif.Btc.C76_serializes", "Verif.Btc.C76_out_of_range", "Verif.Btc.C76_invalid_script"], "note": "For every valid transaction, script, hash type and non-negative index."},
  {"property": "C77", "status": "proved", "theorems": ["Verif.Btc.C77_hash", "Verif.Btc.C77_committed"], "note": "Assumes that the messages hashed in the two calls do not collide. In the case of an empty script without code separators, the place of the input is not committed to: this is so in Bitcoin, too."},
  {"property": "C78", "status": "proved", "theorems": ["Verif.Btc.C78_nothing_else", "Verif.Btc.C78_input_scripts"], "note": "Exact converse of C77."},
  {"property": "C79", "status": "proved", "theorems": ["Verif.Merb.C79_new", "Verif.Merb.C79_kept", "Verif.Merb.C79_prune", "Verif.Merb.C79_getitem", "Verif.Merb.C79_put", "Verif.Merb.C79_remove", "Verif.Merb.C79_iter", "Verif.Merb.C79_hash"], "note": "For every class made by make_MerbinnerTree_subclass whose key2prefix gives Bits that are no prefixes of each other, every program, every mapping. The len() part assumes fewer than 2^63 keys (sys.maxsize)."},
  {"property": "C80", "status": "proved", "theorems": ["Verif.Merb.C80_values", "Verif.Merb.C80_absent", "Verif.Merb.C80_received", "Verif.Merb.C80_classes"], "note": "No assumption on prefixes, which may be forged, nor on key2prefix. Assumes that strings hashed for the two trees do not collide."},
  {"property": "C81", "status": "partial", "theorems": ["Verif.Merb.C81_statement", "Verif.Merb.C81_refuted", "Verif.Merb.C81_never_arrives_partial", "Verif.Merb.C81_one_key_partial", "Verif.Merb.C81_one_proof_partial", "Verif.Merb.C81_one_variant_partial", "Verif.Merb.C81_one_tx_partial"], "note": "False of the code, whenever there are two keys or more (C81_never_arrives_partial, all such trees, keys and receivers): a pruned child is sent without the number of its variant. With one key and values of a primitive type the whole tree arrives (C81_one_key_partial), and proves that any other key is absent. If the value of the one key is a proof, it arrives as a pruned proof with the same hash (C81_one_proof_partial), unless values are declared to be a VarProof, in which case nobody can read what is sent (C81_one_variant_partial). If it is a TxProof, it arrives but nothing that arrived has a hash (C81_one_tx_partial). Missing: nothing but what is refuted."},
  {"property": "C82", "status": "partial", "theorems": ["Verif.Merb.C82_statement", "Verif.Merb.C82_refuted", "Verif.Merb.C82_arrives_partial", "Verif.Merb.C82_lost_partial"], "note": "False of the code: prefixes that are empty, or fill their last byte with anything but 0, cannot be read back. The two partial theorems together say exactly which trees arrive."},
  {"property": "C83", "status": "proved", "theorems": ["Verif.Sus.C83_digest", "Verif.Sus.C83_txid", "Verif.Sus.C83_outpoint"], "note": "Every string. The number of an outpoint is what int() takes: white space, a sign, single underscores between digits; other Unicode digits than ASCII are not modelled."},
  {"property": "C84", "status": "proved", "theorems": ["Verif.Btc.C84_accepts", "Verif.Btc.C84_rejects", "Verif.Btc.C84_no_inflation"], "note": "Every transaction the constructors accept. One whose values do not fit their fields raises struct.error, as C84_accepts with C42 says."},
  {"property": "C85", "status": "proved", "theorems": ["Verif.Btc.C85_levels", "Verif.Btc.C85_root", "Verif.Btc.C85_calc_merkle_root", "Verif.Btc.C85_same_length", "Verif.Btc.C85_no_duplicates", "Verif.Btc.C85_flaw", "Verif.Btc.C85_flaw64"], "note": "Every list. The documented flaw is C85_flaw; another one, not documented, C85_flaw64. Binding assumes that the strings hashed do not collide."},
  {"property": "C86", "status": "partial", "theorems": ["Verif.Btc.C86_statement", "Verif.Btc.C86_refuted", "Verif.Btc.C86_accepts_partial", "Verif.Btc.C86_others_partial"], "note": "False of the code: the first transaction is not passed to CheckTransaction. C86_accepts_partial is an exact description of the blocks accepted."},
  {"property": "C87", "status": "partial", "theorems": ["Verif.Btc.C87_statement", "Verif.Btc.C87_refuted", "Verif.Btc.C87_number", "Verif.Btc.C87_positive_partial", "Verif.Btc.C87_negative_partial", "Verif.Btc.C87_short_partial"], "note": "False of the code: the sign bit is not known, and numbers of less than three bytes raise ValueError. The three partial theorems cover all values of nBits."},
  {"property": "C88", "status": "proved", "theorems": ["Verif.Btc.C88_header_roundtrip", "Verif.Btc.C88_block_roundtrip", "Verif.Btc.C88_block_injective", "Verif.Btc.C88_hash", "Verif.Btc.C88_strings", "Verif.Btc.C88_hash_commits", "Verif.Btc.C88_constructor"], "note": "Every block; binding assumes that the strings hashed do not collide and that no transaction has 64 bytes (C85_flaw64)."},
  {"property": "C89", "status": "proved", "theorems": ["Verif.Btc.C89_eval", "Verif.Btc.C89_total"], "note": "Every stack of up to 2^61 values, every byte string, every transaction that can be serialized; the verification of signatures and SHA-1 are parameters. The language is a small separate interpreter of trees (Spec/ScriptEval.lean)."},
  {"property": "C90", "status": "partial", "theorems": ["Verif.Btc.C90_statement", "Verif.Btc.C90_refuted", "Verif.Btc.C90_refuted_other", "Verif.Btc.C90_agree_partial"], "note": "False of the code in both directions: falsehood is a zero byte instead of the empty string, and pushes are not limited by the number of values. C90_agree_partial covers the scripts to which neither matters, among them all usual outputs."},
  {"property": "C91", "status": "partial", "theorems": ["Verif.Btc.C91_statement", "Verif.Btc.C91_refuted", "Verif.Btc.C91_limits_partial"], "note": "False of the code: pushes skip the check of the number of values. All other limits hold, and the excess is at most the number of pushes."},
  {"property": "C92", "status": "proved", "theorems": ["Verif.Btc.C92_verify"], "note": "Every pair of scripts, every transaction that can be serialized, all flags."},
  {"property": "C93", "status": "partial", "theorems": ["Verif.Btc.C93_statement", "Verif.Btc.C93_refuted", "Verif.Btc.C93_p2sh_partial", "Verif.Btc.C93_binding_partial"], "note": "False of the code: script.py and scripteval.py define two different flags with the name SCRIPT_VERIFY_P2SH, and the one of script.py is ignored. With the other one the theorem is exact."},
  {"property": "C94", "status": "proved", "theorems": ["Verif.Btc.C94_accepts", "Verif.Btc.C94_pushes"], "note": "Every scriptSig."},
  {"property": "C95", "status": "proved", "theorems": ["Verif.Btc.C95_accepts", "Verif.Btc.C95_pushes"], "note": "1 to 16 keys of at most 520 bytes; the scripts that have the form of a script hash (23 bytes) are excluded."},
  {"property": "C96", "status": "proved", "theorems": ["Verif.Btc.C96_return", "Verif.Btc.C96_unspendable"], "note": "Every scriptSig, everything after the operation."},
  {"property": "C97", "status": "partial", "theorems": ["Verif.Btc.C97_statement", "Verif.Btc.C97_refuted", "Verif.Btc.C97_exact_partial"], "note": "False of the code: VerifySignature passes no flags, so BIP 16 is not enforced. C97_exact_partial is an exact description without it."},
  {"property": "C98", "status": "proved", "theorems": ["Verif.Btc.C98_encode", "Verif.Btc.C98_decode", "Verif.Btc.C98_characters", "Verif.Btc.C98_round_trip"], "note": "Every byte string and every text. Base58 in Spec/Base58.lean is a definition by positional numbers, independent of the code."},
  {"property": "C99", "status": "partial", "theorems": ["Verif.Btc.C99_statement", "Verif.Btc.C99_refuted", "Verif.Btc.C99_exact_partial", "Verif.Btc.C99_round_trip_partial", "Verif.Btc.C99_one_text_partial"], "note": "False of the code: four bytes that are the start of the hash of the first of them are accepted, the version byte being part of the checksum; with the real hash the bytes 7415e100 are such. The exact description, the round trip and the uniqueness apart from that hold for any hash."},
  {"property": "C100", "status": "partial", "theorems": ["Verif.Btc.C100_statement", "Verif.Btc.C100_refuted", "Verif.Btc.C100_exact_partial", "Verif.Btc.C100_classes_partial", "Verif.Btc.C100_networks_partial", "Verif.Btc.C100_scripts_partial", "Verif.Btc.C100_pay_to_key_partial", "Verif.Btc.C100_redeem_partial"], "note": "False of the code: the length of the data is never checked. For 20 bytes everything holds: texts, scripts, redeem scripts, the two networks, and (with C94) who can spend an output for the address of a key."},
  {"property": "C101", "status": "partial", "theorems": ["Verif.Btc.C101_statement", "Verif.Btc.C101_refuted", "Verif.Btc.C101_exact_partial", "Verif.Btc.C101_any_partial"], "note": "False of the code: the address of an output for an uncompressed key is the hash of the first 64 of its 65 bytes. The exact description covers every script and both options."},
  {"property": "C102", "status": "partial", "theorems": ["Verif.Btc.C102_statement", "Verif.Btc.C102_refuted", "Verif.Btc.C102_exact_partial", "Verif.Btc.C102_round_trip_partial", "Verif.Btc.C102_networks_partial"], "note": "False of the code: neither the length nor what follows the key is checked. What libssl does with the key is outside."},
  {"property": "C103", "status": "partial", "theorems": ["Verif.Btc.C103_statement", "Verif.Btc.C103_refuted", "Verif.Btc.C103_same_class_partial"], "note": "False of the code: CBase58Data inherits the comparison of bytes, which ignores the version, so the address of a script and the address of a key with the same 20 bytes are equal (and have the same hash, as keys of a dict). Addresses of the same class compare as they should."},
  {"property": "C104", "status": "proved", "theorems": ["Verif.Mmr.C104_any", "Verif.Mmr.C104_slice", "Verif.Mmr.C104_prefix"], "note": "Objects of a heap, pruned views and received objects included. Slices whose start is past their stop give what SliceEnd says (the defect of C21)."},
  {"property": "C105", "status": "proved", "theorems": ["Verif.Btc.C105_stream", "Verif.Btc.C105_from_bytes", "Verif.Btc.C105_sequence", "Verif.Btc.C105_truncated", "Verif.Btc.C105_injective"], "note": "All 15 classes of messages, any network. Fields have the lengths of the protocol and versions are from 209 on, other than 10300 (Fits; C106 says what happens otherwise). socket.inet_aton is a parameter of which it is assumed that it gives four bytes and understands what inet_ntoa writes (Inet; quads is one that does)."},
  {"property": "C106", "status": "partial", "theorems": ["Verif.Btc.C106_statement", "Verif.Btc.C106_refuted", "Verif.Btc.C106_equal_partial", "Verif.Btc.C106_version_partial"], "note": "False of the code: version 10300 is read as 300, and versions before 209 lose fields; what arrives of them is described exactly. socket.inet_aton is a parameter of which it is assumed that it gives four bytes and understands what inet_ntoa writes (Inet; quads is one that does)."},
  {"property": "C107", "status": "partial", "theorems": ["Verif.Btc.C107_statement", "Verif.Btc.C107_refuted", "Verif.Btc.C107_accepted_partial", "Verif.Btc.C107_network_partial", "Verif.Btc.C107_other_network_partial", "Verif.Btc.C107_checksum_partial"], "note": "False of the code: a length of 2^31 or more is read as a negative number, the rest of the stream is consumed. The exact set of what is accepted is given for every stream."},
  {"property": "C108", "status": "partial", "theorems": ["Verif.Btc.C108_statement", "Verif.Btc.C108_refuted", "Verif.Btc.C108_write_partial", "Verif.Btc.C108_read_partial", "Verif.Btc.C108_carried_partial"], "note": "False of the code: CUnsignedAlert uses names that do not exist. No alert can be written or read; the bytes of an alert travel in an alert message."},
  {"property": "C109", "status": "proved", "theorems": ["Verif.Btc.C109_murmur", "Verif.Btc.C109_seed"], "note": "Against MurmurHash3 on 32-bit words (Spec/Bloom.lean). Seeds are not negative (bloom_hash, the only caller, masks them)."},
  {"property": "C110", "status": "proved", "theorems": ["Verif.Btc.C110_insert", "Verif.Btc.C110_contains", "Verif.Btc.C110_history", "Verif.Btc.C110_contained", "Verif.Btc.C110_no_false_negatives", "Verif.Btc.C110_order", "Verif.Btc.C110_empty", "Verif.Btc.C110_outpoint", "Verif.Btc.C110_unusable"], "note": "Every filter, whatever its bytes, hash functions and tweak. The sizes __init__ computes with floats are outside: a filter is any byte string with any number of functions; one without bytes that has functions cannot be used (C110_unusable)."},
  {"property": "C111", "status": "partial", "theorems": ["Verif.Btc.C111_statement", "Verif.Btc.C111_refuted", "Verif.Btc.C111_limits_partial", "Verif.Btc.C111_write_partial", "Verif.Btc.C111_injective_partial", "Verif.Btc.C111_read_partial"], "note": "False of the code: stream_deserialize uses self before it has a value and always raises. Writing follows the protocol, and different filters are written differently."},
  {"property": "C112", "status": "proved", "theorems": ["Verif.Sus.C112_workflow"], "note": "mkclosetx, mkwitness and verifywitness composed, each in a process of its own with any reachable heap. Starts from seal files, since mkseal never succeeds (C56). Signing is not modelled: the transaction given to mkwitness is any one with the outpoints and the first output of the template."},
  {"property": "C113", "status": "proved", "theorems": ["Verif.Sus.C113_one_digest"], "note": "For witness files made by mkwitness (they show output 0). For witnesses made otherwise it is false, since they may show any output: C49."},
  {"property": "C114", "status": "proved", "theorems": ["Verif.Btc.C114_signs", "Verif.Btc.C114_single"], "note": "The procedure of examples/spend-p2pkh-txout.py and spend-p2sh-txout.py for any inputs of any transaction. A key is its public key and what sign returns (libssl); Signer.Works says what is assumed of these."},
  {"property": "C115", "status": "proved", "theorems": ["Verif.Btc.C115_commits"], "note": "Assumes of the key that its signature of one hash is none of another, and of SHA-256 that the two messages do not collide. For the type about a single output there has to be such an output in the other transaction; otherwise what is checked is the number 1 (C76)."},
  {"property": "C116", "status": "proved", "theorems": ["Verif.Seal.C116_close"], "note": "make_close_seal_tx_template, the signing procedure of the examples, and the procedure of cmd_mkwitness composed."},
  {"property": "C117", "status": "proved", "theorems": ["Verif.Rpc.C117_balance", "Verif.Rpc.C117_received", "Verif.Rpc.C117_whole", "Verif.Rpc.C117_grammar", "Verif.Rpc.C117_rounded"], "note": "Numbers of at most 20 digits; beyond, the product with COIN may have more than the 28 digits of the default context of decimal and is rounded (an example is in Props/RpcExamples.lean)."},
  {"property": "C118", "status": "proved", "theorems": ["Verif.Rpc.C118_text", "Verif.Rpc.C118_exists", "Verif.Rpc.C118_double", "Verif.Rpc.C118_request"], "note": "Amounts from 0 to 21 million coins. The binary64 arithmetic of float(amount)/COIN is modelled with rational numbers; that json.dumps writes the shortest text (Shortest in Spec/Rpc.lean) is the documented behaviour of repr."},
  {"property": "C119", "status": "proved", "theorems": ["Verif.Rpc.C119_get", "Verif.Rpc.C119_send", "Verif.Rpc.C119_tx", "Verif.Rpc.C119_getblock", "Verif.Rpc.C119_block", "Verif.Rpc.C119_blockhash", "Verif.Rpc.C119_mempool"], "note": "The node is a parameter: any state and any function from requests to responses; Node in Spec/Rpc.lean says what is assumed of it, and Props/RpcExamples.lean has one. HTTP and the text form of JSON are not modelled."},
  {"property": "C120", "status": "proved", "theorems": ["Verif.Rpc.C120_index", "Verif.Rpc.C120_txout", "Verif.Rpc.C120_raise", "Verif.Rpc.C120_only", "Verif.Rpc.C120_ids"], "note": "A node that answers with an error gives it a message and a number, as Bitcoin Core does."},
  {"property": "C121", "status": "proved", "theorems": ["Verif.Rpc.C121_unspent", "Verif.Rpc.C121_unspent_of", "Verif.Rpc.C121_lock", "Verif.Rpc.C121_txout", "Verif.Rpc.C121_sign", "Verif.Rpc.C121_verbose", "Verif.Rpc.C121_info", "Verif.Rpc.C121_validate", "Verif.Rpc.C121_absent"], "note": "What the node says besides the members named is returned unchanged."},
  {"property": "C122", "status": "proved", "theorems": ["Verif.Rpc.C122_given", "Verif.Rpc.C122_workflow", "Verif.Rpc.C122_unknown"], "note": "The node is as in C119. The transaction that is sent is any with the outputs of mkclosetx."},
  {"property": "C123", "status": "partial", "theorems": ["Verif.Rpc.C123_refuted", "Verif.Rpc.C123_exact_partial", "Verif.Rpc.C123_brackets_partial", "Verif.Rpc.C123_slash_partial", "Verif.Rpc.C123_errors_partial"], "note": "False for names or passwords with / or ?, and for those with only one kind of bracket: the settings are put into a URL without quoting. exact_partial says for which it is true; slash_partial what happens otherwise. urlparse as in Python 3.6."},
  {"property": "C124", "status": "proved", "theorems": ["Verif.Btc.Objs.C124_sighash", "Verif.Btc.Objs.C124_edits", "Verif.Btc.Objs.C124_original"], "note": "Objects refer to other objects, and any of them may be shared. Attributes are assigned values of their type."},
  {"property": "C125", "status": "partial", "theorems": ["Verif.Btc.Objs.C125_refuted", "Verif.Btc.Objs.C125_frozen_partial", "Verif.Btc.Objs.C125_read_partial", "Verif.Btc.Objs.C125_exact_partial"], "note": "False if an input was made with a CMutableOutPoint, which is not copied: the content changes and GetHash() may be stale. exact_partial says that these are the only exceptions; transactions that were read from bytes have none."},
  {"property": "C126", "status": "partial", "theorems": ["Verif.Btc.C126_refuted", "Verif.Btc.C126_select_partial", "Verif.Btc.C126_wallet_partial", "Verif.Btc.C126_blocks_partial", "Verif.Btc.C126_main_partial", "Verif.Btc.C126_messages_partial", "Verif.Btc.C126_genesis_partial", "Verif.Btc.C126_core_partial"], "note": "False: SelectParams(\"mainnet\") leaves PROOF_OF_WORK_LIMIT None, so that CheckBlock raises TypeError for every block with work, and messages are written and read for the main network whichever is chosen. The partial theorems say for all sequences of calls what is right and what is not."},
  {"property": "C127", "status": "partial", "theorems": ["Verif.Btc.C127_refuted", "Verif.Btc.C127_wallet_partial", "Verif.Btc.C127_messages_partial"], "note": "False of addresses and secret keys of the test network and of regression tests, which have the same versions. Proved for the main network against the others, and for messages of any two networks."},
  {"property": "C128", "status": "proved", "theorems": ["Verif.Boot.C128_chain", "Verif.Boot.C128_any", "Verif.Boot.C128_usage", "Verif.Boot.C128_readable", "Verif.Boot.C128_blocks"], "note": "The node is any node; C128_chain is about nodes that have a chain and keep it. The clock must not show the time of the start when a block is read, which makes the program die by a division by zero (C128_any covers this)."},
  {"property": "C129", "status": "proved", "theorems": ["Verif.Rp.C129_eval", "Verif.Rp.C129_same", "Verif.Rp.C129_text"], "note": "eval is the evaluator of Verif/Spec/Repr.lean, a part of Python: numbers, texts, names, calls, lists, tuples, one multiplication."},
  {"property": "C130", "status": "proved", "theorems": ["Verif.Rp.C130_outpoint", "Verif.Rp.C130_input"], "note": "Same evaluator. The prevout of an input is immutable or mutable; the text, and what it evaluates to, is that of an immutable one."},
  {"property": "C131", "status": "partial", "theorems": ["Verif.Rp.C131_refuted", "Verif.Rp.C131_output_partial", "Verif.Rp.C131_tx_partial", "Verif.Rp.C131_value_partial", "Verif.Rp.C131_whole_partial", "Verif.Rp.C131_header_partial"], "note": "False: CTxOut shows its value as a product of a float and COIN, which int() cuts off, so 0.29 bitcoins become 28999999 satoshis; and the hashes of CBlockHeader are shown without quotes. Proved instead: exactly what the texts evaluate to; values are off by at most one satoshi, whole coins by nothing; the text of a header never evaluates."},
  {"property": "C132", "status": "partial", "theorems": ["Verif.Rp.C132_refuted", "Verif.Rp.C132_exact_partial", "Verif.Rp.C132_injective_partial"], "note": "False for negative amounts: -1 satoshi is shown as -1.99999999. Proved: the text is the amount exactly if it is not negative or a whole number of bitcoins; different amounts have different texts."},
  {"property": "C133", "status": "proved", "theorems": ["Verif.Rp.C133_str", "Verif.Rp.C133_texts", "Verif.Rp.C133_tag", "Verif.Rp.C133_bits", "Verif.Rp.C133_bits_same"], "note": "Texts are ASCII. uuid.UUID and int(text, 16) are modelled from the documentation of Python. eval is the evaluator of Verif/Spec/Repr.lean."},
  {"property": "C134", "status": "partial", "theorems": ["Verif.Rp.C134_refuted", "Verif.Rp.C134_printable_partial", "Verif.Rp.C134_received_partial", "Verif.Rp.C134_raises_partial"], "note": "False: an inventory of a kind other than 0 to 3 raises KeyError, a version before 209 TypeError, since fields that were not sent are None. Proved instead: exactly which messages can be printed, which received ones, and what is raised otherwise. time.ctime is a parameter."},
  {"property": "C135", "status": "partial", "theorems": ["Verif.Btc.C135_refuted", "Verif.Btc.C135_made_partial", "Verif.Btc.C135_limits_partial", "Verif.Btc.C135_contains_partial", "Verif.Btc.C135_inserted_partial", "Verif.Btc.C135_errors_partial", "Verif.Btc.C135_ordinary_partial"], "note": "False: a filter for one element and the rate 1/16 gets no byte and no hash function and contains everything (so do filters for more than about 200000 elements and filters with rates above one half). Proved instead: the sizes are the textbook ones rounded down, within the limits, up to 10^-9; a new filter contains nothing exactly if it has a hash function, which it has for up to 190000 elements and rates up to 1/64; nothing inserted is lost. math.log is any function with an error below 2^-50; floats have no largest one."},
  {"property": "C136", "status": "partial", "theorems": ["Verif.Stamp.C136_refuted", "Verif.Stamp.C136_ends_partial", "Verif.Stamp.C136_harmless_partial"], "note": "False: line 58 uses the name script, which neither bitcoin.core nor bitcoin.core.script exports, so that no digest is ever timestamped, with any node. Proved instead: exactly when the program ends normally (nothing to timestamp), and that it changes nothing at the node beyond what listunspent, getnewaddress and validateaddress change."},
  {"property": "C137", "status": "proved", "theorems": ["Verif.Btc.C137_nearest", "Verif.Btc.C137_order", "Verif.Btc.C137_fails", "Verif.Btc.C137_accepted", "Verif.Btc.C137_compare"], "note": "Floats are rounded rational numbers. The target is what uint256_from_compact gives, below 2^256 as CheckProofOfWork demands."},
  {"property": "C138", "status": "partial", "theorems": ["Verif.Decl.C138_refuted", "Verif.Decl.C138_number_partial", "Verif.Decl.C138_back_partial", "Verif.Decl.C138_flat_partial", "Verif.Decl.C138_tag_partial", "Verif.Decl.C138_apart_partial"], "note": "False: a variant derived from another variant is written with the number of the latter and read back as it. Proved instead: exactly which number is written and which class is read, for every program; that the claim holds where variants are derived directly from the class they are declared with and nothing above them is a variant (as everywhere in the repository); and which tags variants get."},
  {"property": "C139", "status": "partial", "theorems": ["Verif.Decl.C139_refuted", "Verif.Decl.C139_exact_partial", "Verif.Decl.C139_governs_partial", "Verif.Decl.C139_safe_partial", "Verif.Decl.C139_settled_partial"], "note": "False: SERIALIZED_ATTRS_BY_NAME is inherited, so that after Proof() every class not instantiated before makes objects without attributes. Proved instead: exactly which attributes objects get, in every program, and two conditions under which they are the declared ones."},
  {"property": "C140", "status": "proved", "theorems": ["Verif.GuMap.C140_agree"], "note": "The uniqueness of Bitcoin seals, which C54 takes as a hypothesis, is derived from the chain here, for witnesses that show the first output (as those of make_witness do; C49 says why this is needed). Collision-freeness only on what was hashed for the two maps, their transactions and their digests."},
  {"property": "C141", "status": "partial", "theorems": ["Verif.GuMap.C141_statement", "Verif.GuMap.C141_refuted", "Verif.GuMap.C141_prefixes_partial", "Verif.GuMap.C141_stepwise_partial"], "note": "False: the seal of an inner node is not closed over its prefix, so two views may place one key on different sides. prefixes_partial: with the same prefixes of inner nodes in both views, leaves with the same key are at the same place and have the same value; stepwise_partial: which holds if every inner node has one bit more than the node above, something each holder can check alone."},
  {"property": "C142", "status": "proved", "theorems": ["Verif.GuMap.C142_one_value"], "note": "The proofs may come from maps in different states, with everything pruned that is off the way (only the nodes on the way are verified). Uniqueness of Bitcoin seals is derived from the chain as in C140 (first outputs). Fake seals are covered as well. Same hash-collision hypotheses as C54/C140, only for the strings on the two ways. Prefixes of inner nodes need not be checked, only that the prefix of the key begins with the way; compare C141, which is false without such a check."},
  {"property": "C143", "status": "proved", "theorems": ["Verif.Btc.C143_eq", "Verif.Btc.C143_hash", "Verif.Btc.C143_dict"], "note": "Model of ==, != and hash() of the classes of core/__init__.py with the class hierarchy and the order in which Python asks the two methods. eq gives the result for every pair of objects, also those that cannot be serialized (then == raises, if the objects are of one kind). dict is a lookup in a dictionary, for any hash of byte strings. Kept hashes of immutable objects are those of their content (see C125 for when parts of them change)."},
  {"property": "C144", "status": "partial", "theorems": ["Verif.GuMap.C144_checks", "Verif.GuMap.C144_refuted", "Verif.GuMap.C144_lost_partial", "Verif.GuMap.C144_arrives_partial"], "note": "The full statement C144_statement is refuted by C144_refuted (a map of the keys 4, 5 and 8, proof for key 8). The _partial theorems say when it holds: lost_partial - with an inner node beside the way the bytes are never accepted, whatever the map and whatever the receiver has; arrives_partial - without one the receiver looks up the same key and value, verifying the same nodes, and finds the same hash of the map. Maps whose prefixes do not survive serialization (C18) and keys or values that are VarProofs or TxProofs are outside (WellTyped, OrdinaryData). checks says what the look-up (checkKey) shows. Missing: nothing but what is refuted."},
  {"property": "C145", "status": "proved", "theorems": ["Verif.C145_proofs", "Verif.C145_depth", "Verif.C145_tx", "Verif.C145_block"], "note": "Objects are counted on the model heap; the sizes of lists and strings within a value are bounded by the bytes because they are read from them (C145_tx, C145_block). Time and memory of the interpreter itself are not modelled. C145_depth says that the recursion is no deeper than there are bytes; the limit of the interpreter on recursion is not modelled."},
  {"property": "C146", "status": "partial", "theorems": ["Verif.C146_refuted", "Verif.C146_raises_partial", "Verif.C146_plain_partial", "Verif.C146_bitcoin_partial"], "note": "The full statement C146_statement is refuted by C146_refuted (two bytes read as a map end with NameError). raises_partial lists for every class the exceptions that there can be; plain_partial says for which classes the statement holds; bitcoin_partial says that reading transactions, blocks and headers raises nothing but the SerializationError family of python-bitcoinlib. Examples show each of the exceptions listed. Missing: nothing but what is refuted. RecursionError and MemoryError are not modelled."},
  {"property": "C147", "status": "partial", "theorems": ["Verif.C147_refuted", "Verif.C147_constructor_partial", "Verif.C147_tree_partial", "Verif.GuMap.C147_map_partial"], "note": "The full statement C147_statement is refuted by C147_refuted (two keys). The _partial theorems say what holds: the constructor takes one key at most, no sequence of put and remove gives a tree of two keys, trees of one key work, and from_children of a map fails if a child is a leaf. Missing: nothing but what is refuted."},
  {"property": "C148", "status": "partial", "theorems": ["Verif.Btc.C148_statement", "Verif.Btc.C148_refuted", "Verif.Btc.C148_varint_partial", "Verif.Btc.C148_varint_back_partial", "Verif.Btc.C148_bytes_partial", "Verif.Btc.C148_varstring_partial", "Verif.Btc.C148_uint256s_partial", "Verif.Btc.C148_ints_partial", "Verif.Btc.C148_vector_partial"], "note": "The full statement C148_statement is refuted by C148_refuted (intVectorSerialzer reads every vector as None). The _partial theorems say for each of the six serializers exactly what is written and what comes back. Missing: nothing but what is refuted."},
  {"property": "C149", "status": "partial", "theorems": ["Verif.Sus.C149_statement", "Verif.Sus.C149_refuted", "Verif.Sus.C149_exact_partial", "Verif.Sus.C149_completed_partial"], "note": "The full statement C149_statement is refuted by C149_refuted (two seals with one outpoint, as in C57). exact_partial says exactly when the transaction printed is valid; completed_partial what becomes of it when inputs are signed and outputs added. Missing: nothing but what is refuted."},
  {"property": "C150", "status": "partial", "theorems": ["Verif.C150_list_statement", "Verif.C150_map_statement", "Verif.C150_refuted", "Verif.Mmr.C150_list_partial", "Verif.Mmr.C150_list_exact_partial", "Verif.Merb.C150_map_partial", "Verif.Merb.C150_map_exact_partial"], "note": "The full statements C150_list_statement (mountain ranges) and C150_map_statement (merbinner trees) are both refuted by C150_refuted, with bytes that the library accepts. The partial theorems: for received bytes of whatever origin, what indexing or lookup gives is always among what iterating gives; and all of it is found if lengths are true and keys are where they are looked for. The exact theorems say for which lengths and layouts everything is found (for mountain ranges: if the items differ). Missing: nothing but what is refuted."},
  {"property": "C151", "status": "proved", "theorems": ["Verif.Merb.C151_issubset", "Verif.Merb.C151_classes"], "note": "On proof objects, perhaps pruned views, with values that are plain or proofs (C31 is on trees without identity). == of proofs is equality of hashes, so it is assumed that the strings hashed do not collide."},
  {"property": "C152", "status": "proved", "theorems": ["Verif.C152_text", "Verif.C152_same", "Verif.C152_pruned"], "note": "Over any table of classes and any heap reachable by the operations of the model; the names of classes are an argument without parentheses in them."},
  {"property": "C153", "status": "proved", "theorems": ["Verif.Btc.C153_text", "Verif.Btc.C153_exact", "Verif.Btc.C153_back", "Verif.Btc.C153_networks", "Verif.Btc.C153_same"], "note": "Evaluating is reading the text as a Python expression (Spec/Repr.lean) and calling the class named in it."},
  {"property": "C154", "status": "proved", "theorems": ["Verif.Rpc.C154_address", "Verif.Rpc.C154_survives", "Verif.Rpc.C154_refuses", "Verif.Rpc.C154_nodes"], "note": "The node is any state machine that answers requests."},
  {"property": "C155", "status": "proved", "theorems": ["Verif.Rp.C155_address", "Verif.Rp.C155_address_tells", "Verif.Rp.C155_inv", "Verif.Rp.C155_inv_tells", "Verif.Rp.C155_locator", "Verif.Rp.C155_locator_tells", "Verif.Rp.C155_bytes_tells", "Verif.Rp.C155_alert", "Verif.Rp.C155_alert_tells"], "note": "The text of a bytes object, which is Python's own repr, is modelled for all bytes."},
  {"property": "C156", "status": "partial", "theorems": ["Verif.Rpc.C156_refuted", "Verif.Rpc.C156_exact_partial", "Verif.Rpc.C156_standard_partial", "Verif.Rpc.C156_anonymous_partial", "Verif.Rpc.C156_never_partial"], "note": "False of the code: https without a port connects to port 80 (C156_refuted). Proved: which connection is made for every URL whose parts are in their places, that the expectation is met exactly unless it is https without a port, what is sent without name and password, and that a name or password with / ? or # is never sent."},
  {"property": "C157", "status": "proved", "theorems": ["Verif.Btc.C157_key", "Verif.Btc.C157_none", "Verif.Btc.C157_sign", "Verif.Btc.C157_same", "Verif.Btc.C157_signer", "Verif.Btc.C157_text", "Verif.Btc.C157_repr"], "note": "libssl is a parameter; what is assumed of it is Ssl.Works in Spec/Key.lean, for secrets whose point libssl computes and is not infinity."},
  {"property": "C158", "status": "partial", "theorems": ["Verif.Btc.C158_refuted", "Verif.Btc.C158_exact_partial", "Verif.Btc.C158_when_partial", "Verif.Btc.C158_valid_partial"], "note": "Not ensured by the code: verify looks neither at is_fullyvalid nor at the result of set_pubkey, so for a library that accepts signatures for the point of a new key it fails (C158_refuted). Proved: what is accepted for every key, and that the expectation is met exactly if libssl accepts nothing for that point."},
  {"property": "C159", "status": "proved", "theorems": ["Verif.Rpc.C159_string", "Verif.Rpc.C159_json", "Verif.Rpc.C159_ascii", "Verif.Rpc.C159_fails", "Verif.Rpc.C159_tells", "Verif.Rpc.C159_batch"], "note": "json.dumps with its default arguments is modelled; the text of a float is a parameter with the assumptions FloatText in Spec/RpcText.lean. Texts are sequences of Unicode scalar values (no single surrogates)."}
]}
