# Formal model of python-proofchains (Lean 4)

## Trusted base

* Lean 4.33.0's kernel, and the axioms listed by `#print axioms` for each property theorem: at most `propext`,
  `Classical.choice`, `Quot.sound` (a generated list is kept at the end of this file). No axioms of our own, no
  `sorry`, no `native_decide`/`bv_decide`.
* The reading of the Python source: the model is hand written, each definition cites the lines it models.
* External functions are *parameters* of the model, never axioms: SHA-256 and RIPEMD-160 are the fields of a structure
  `HashFns` (any functions `Bytes → Bytes` with outputs of 32/20 bytes). Theorems about commitments never assume that a
  hash is injective (no such function exists) and never conclude "or there is a collision" (true of every function of that type
  by counting): they assume `CollisionFree h S`, no collision among the strings in the explicit finite list `S` of
  what is hashed for the objects the theorem speaks about. `Model/Sha256.lean` defines the real SHA-256 and RIPEMD-160;
  the examples use it to show that the hypotheses can be met.
* Idealisations: unbounded recursion depth and memory, Python ints are `Nat`/`Int`, `assert` is enabled (no `-O`), no
  concurrency (the code has none), immutable Python objects are values. Only the proof-pruning layer, which mutates
  objects in place, is modelled with a heap.

## Layout

* `Verif/Py.lean` – bytes, exceptions as values, parser monad.
* `Verif/Model/*.lean` – the model, function by function, with citations.
* `Verif/Spec/*.lean` – small specifications that do not mention the model (lists, bit lists, finite maps, ...).
* `Verif/Lemmas/*.lean` – helper lemmas.
* `Verif/Props/*.lean` – one theorem (or a few) per property, with a non-vacuity `example` beside each.
* `seeded/LOG.jsonl` – mutation experiments.

## Modelling decisions per property

| property | modelled | proof |
|---|---|---|
| C01, C02 | `write_varuint`/`read_varuint` loops on `Nat`, byte streams as `List (BitVec 8)` | induction on n / on the bytes |
| C03–C05, C07 | a closed universe `PrimTy` of serializers with check/serialize/deserialize | case analysis + C01; lists by induction |
| C06 | same; the unrestricted claim is false (overlong varints, ignored trailing bytes): counterexamples proved, true part `_partial` | direct |
| C08 | `HashTag` as 16-byte strings, SHA-256 a parameter | append injectivity |
| C09–C15, C17 | byte-level `Bits` (length + buffer with arbitrary garbage) with every bit operation as in the code; spec is `List Bool` | bit extensionality, loop invariants |
| C16 | false: `[0]` and `[0,0]` are unordered; counterexample + the part that is true (equal lengths: lexicographic) | direct |
| C18 | false for the empty string and for whole-byte lengths with a non-zero last byte; exact characterisation proved | direct |
| C19–C25 | MMR trees with stored lengths, all assertions as exceptions; spec is lists and the docstring recursion | shape invariant, induction |
| C21 | false when start>stop after clamping (a negative stop is reinterpreted); counterexample, `_partial` otherwise | induction |
| C26–C33 | merbinner trees over bit-list prefixes; `key2prefix` a parameter with prefix-free image | refinement to finite maps, uniqueness of canonical trees |
| C27 | false: re-putting a key trips an assertion; counterexample for every present key | direct |
| C34–C41 | generic `Proof`/`VarProof`/`ProofUnion` over class tables; heap of mutable objects with lazily unpruned attributes and cached hashes | representation relation heap→tree, invariants |
| C37, C41 | false in general (pruned VarProof loses its variant; TxProof has no HASHTAG; `DeserializationError` is not imported in proof.py); counterexamples and `_partial` | direct |
| C42–C44 | python-bitcoinlib stream serializers | parser round trips |
| C45–C51 | proofchains Bitcoin proofs and seals | direct; C49 false (two outputs), counterexample + `_partial` |
| C52–C55 | GuMap variants; C55 false (prefixes unchecked) | direct, tree induction |
| C56–C60 | sus-tool commands over an abstract filesystem | direct; C56, C57, C59, C60 are false as stated, counterexamples |
| C61, C62 | `__contains__` of merbinner trees raises; `Proof.check_instance` checks nothing. Statement, counterexample, exact description of what happens | direct |
| C67–C74 | `script.py`, `_bignum.py`; the spec is a syntax of operations (`Tok`) and their bytes, numbers by positional value, and Satoshi's `FindAndDelete` and `GetSigOpCount` on it. C70, C72, C73 are false, exact descriptions instead | C74 binding: no collision |
| C75–C78 | copies of transactions, with classes of the parts; signature hashes against a spec of the transaction as it is signed. C75 is false, exact description; C77 and C78 are converse | C77: no collision |
| C79–C82 | `merbinnertree.py` on heap objects; C79 connects it to the tree model, C80 is about arbitrary trees with equal hash, C81 and C82 are false (statement, counterexample, exact description) | representation, `Compat` of C39 |
| C83 | the functions of sus-tool that read arguments, against grammars of digests, txids and outpoints | – |
| C84–C88 | `CheckTransaction`, `CheckBlock`, merkle trees, proofs of work against specs without loops over indices; C86 and C87 are false (statement, counterexample, exact description) | binding: no collision; C88: no transaction of 64 bytes |
| C89–C97 | scripteval.py against an interpreter of trees (`Spec/ScriptEval.lean`), one instance of which is the language of the Satoshi client, one that of this library; standard outputs; C90, C91, C93 and C97 are false (statement, counterexample, exact description) | verification of signatures, SHA-1 and the hashes are parameters; binding: no collision |
| C98–C103 | base58.py and wallet.py against positional numbers (`Spec/Base58.lean`) and the outputs of C93 and C94; C99–C103 are false in corners (statement, counterexample, exact description) | libssl is outside: which public keys are valid is a parameter, a `CKey` is what is passed to it |
| C104 | slices of `mmr.py` on heap objects, from C21 and the connection of C64 | as C64 |
| C105–C108 | messages.py and net.py: reading is inverse to writing (`Spec/Net.lean`); what is accepted is described exactly; C106–C108 are false in corners (statement, counterexample, exact description) | `socket.inet_aton` is a parameter with two assumptions (`Inet`), met by `quads` |
| C109–C111 | bloom.py against MurmurHash3 on `BitVec 32` and sets of bits (`Spec/Bloom.lean`); C111 is false (statement, counterexample, exact description) | sizes of filters are given (they are computed in C135) |
| C112–C113 | commands of sus-tool.py one after the other, in separate processes | signing, the node |
| C114–C116 | examples/spend-p2pkh-txout.py, spend-p2sh-txout.py: signing the inputs of a transaction | key.py (libssl): a key is its public key and a function; what is assumed of it is `Signer.Works` and `Signer.Binds` in Spec/Spend.lean (the former holds of `CKey` by C157) |
| C117–C121 | lib/python-bitcoinlib/bitcoin/rpc.py: `RawProxy._call`, `JSONRPCException` and all methods of `Proxy`; numbers of JSON as text, `decimal` multiplication, binary64 division | HTTP, connection errors, the text form of JSON besides numbers; the node is any state machine that answers requests, what is assumed of it is `Node` in Spec/Rpc.lean |
| C122 | `mkwitness --txid` and `sendrawtransaction` over one node | as for C117–C121 |
| C123 | `RawProxy.__init__` with a bitcoin.conf, and `urlparse` for the URL it makes | where the file is, base64, the connection itself; urlparse of Python versions after 3.6 |
| C124, C125 | transactions as objects that may share parts: constructors, copies, assignments, `append`, `serialize`, `GetHash` with what it remembers, `RawSignatureHash` | assigning values of other types; the remembered `__hash__` and the hashes of inputs and outputs |
| C126, C127 | the classes of chain parameters with what they inherit, the variables `params` and `coreparams`, `SelectParams`, and which of them addresses, keys, blocks, messages and the RPC proxy look at | DNS seeds; assigning to the variables directly |
| C128 | examples/make-bootstrap-rpc.py: arguments, network, loop over heights, what is written, over any node | the speed it prints, except that the division may fail; writing to a file that fails |
| C129–C132 | bitcoin/core/script.py, bitcoin/core/__init__.py: `__repr__` of CScriptOp, CScript, COutPoint, CTxIn, CTxOut, CTransaction, CBlockHeader; str_money_value; evaluating these texts (Spec/Repr.lean: a small part of Python's expressions, with floats as in C119) | the `repr` of anything that is not of these classes inside an object |
| C133 | proofmarshal/serialize.py: `HashTag.__new__`, `__str__`, `__repr__`; proofmarshal/bits.py: `__repr__`, `__str__`; evaluating these texts (Spec/Repr.lean) | texts that are not ASCII; `uuid.UUID` and `int` of a text are Python's, modelled from their documentation |
| C134 | bitcoin/net.py, bitcoin/messages.py, bitcoin/core/__init__.py: `__repr__` of messages, addresses, inventory, locators, alerts, blocks | `time.ctime` is a parameter |
| C135 | bloom.py: `CBloomFilter.__init__` with floats as rounded rational numbers, against the textbook sizes with real logarithms (`Spec/BloomSize.lean`); false (statement, counterexample, exact description) | `math.log` is a parameter; there is no largest float |
| C136 | examples/timestamp-op-ret.py over any node and any files; false (statement, counterexample, exact description) | what is printed; what comes after line 58, which is never reached |
| C137 | `CBlockHeader.calc_difficulty`, floats as rounded rational numbers | |
| C138 | `declare_variant` and the numbers of variants, for classes made by any program; false (statement, counterexample, exact description) | multiple inheritance; assignments to class attributes other than those of `declare_variant` and `Proof.__new__` |
| C139 | the class attributes of `Proof.__new__`, for classes made by any program; false (statement, counterexample, exact description) | as C138 |
| C140 | two maps with one root seal, held anywhere, witnesses on one chain (over C54) | as C54 |
| C141 | the keys in two such maps; false (statement, counterexample, what has to be added) | as C54 |
| C142 | two maps with one root seal, possibly pruned, the nodes on the way to a key (over C54, C140) | as C54 |
| C143 | `==`, `!=`, `hash()`, dictionaries of Bitcoin objects (`Model/BtcEq.lean`) | what is kept of `hash()` when parts are changed |
| C144 | sending a pruned map with a proof for one key (`Spec/GuShip.lean`: `checkKey`, no new model) | — |
| C145, C146 | reading any bytes: objects made, depth, exceptions (`Spec/Reading.lean`; no new model) | — |
| C147 | merbinnertree.py and gumap.py with the `key2prefix` that they define (`Model/OwnPrefix.lean`) | — |
| C148 | bitcoin/core/serialize.py: the subclasses of `Serializer` (`Model/Serializers.lean`) | values of other types than the serializer is for |
| C149 | what mkclosetx prints, under `CheckTransaction` (over C57, C84; no new model) | — |
| C150 | iterating and looking up in trees received from anyone (over C64, C79; no new model) | `Spec/Received`: when stored lengths and the layout let everything be found |
| C151 | `Model/MbSubset`: `issubset` on heap objects | `Props/MbSubset`: equal values (`SameValue`), entries that can be hashed (`Hashable`); simulates the `issubset` of C31 |
| C152 | `Model/ProofRepr`: `Proof.__repr__` | names of classes without parentheses (`IsNames`) |
| C153 | bitcoin/base58.py: `CBase58Data.__repr__`; evaluating the text (`Spec/Base58Repr.lean`) | `%r` of a text of base 58 digits is the text in quotes |
| C154 | bitcoin/rpc.py: the methods that return addresses, and `addnode` | as for C117–C121 |
| C155 | bitcoin/net.py: the `__repr__` of each class | as for C134 |
| C156 | bitcoin/rpc.py: `RawProxy.__init__` with a URL | as for C123 |
| C157, C158 | bitcoin/core/key.py, `CKey` of wallet.py: the wrappers around libssl | libssl itself (`Ssl` in Model/Key.lean, assumptions `Ssl.Works` in Spec/Key.lean); the ECDH functions and `set_privkey`/`get_privkey`, which nothing uses |
| C159 | the text of requests, bitcoin/rpc.py: `RawProxy._call`, `_batch` with `json.dumps` | the text of a `float` (`FloatText` in Spec/RpcText.lean); single surrogates |
| C64–C66 | `mmr.py` on heap objects; C64 connects it to the tree model, C65 is about arbitrary trees with equal hash, C66 is false (statement, counterexample, exact description) | representation, `Compat` of C39 |
| C63 | `BitsSerializer.deserialize` with the padding checks | bit extensionality |

## What is modelled, file by file

| file | modelled | not modelled |
|---|---|---|
| proofmarshal/serialize.py | `Bytes(De)SerializationContext` for bool, varuint, bytes; the primitive serializers; `HashTag` | `JsonSerializationContext` (an empty stub) |
| proofmarshal/bits.py | `Bits` as a byte buffer and a length, every method; `BitsSerializer` | `__hash__` (there is none) |
| proofmarshal/mmr.py | every method of the three node classes on never pruned trees and on proof objects, pruned or not | which class a decorator makes is given by the table (C138, C139 are on declarations) |
| proofmarshal/merbinnertree.py | every method of the node classes on never pruned trees; `put`, `remove`, lookup, iteration, `len`, `descend`, `issubset` also on heap objects, perhaps pruned (`Model/MbProof.lean`, `Model/MbSubset.lean`); sets and maps | as above |
| proofmarshal/proof.py | `Proof`, `VarProof`, `ProofUnion` over a table of classes: attributes, bases, variants, whether the class was instantiated before (`SERIALIZED_ATTRS_BY_NAME`); instances live in a heap, with `__orig_instance`, cached `hash`/`data_hash`, lazily unpruned attributes ; declarations of classes by programs (C138, C139); `__repr__` (C152) | the message of `PrunedError` |
| bitcoin/core/serialize.py, core/__init__.py | streams, `VarInt`, `CTransaction` and parts, `CBlockHeader`, `CBlock`, copies between mutable and immutable transactions, assignment to attributes of the `CMutable…` classes, `CheckTransaction`, `CheckProofOfWork`, `CheckBlockHeader`, `CheckBlock`, `GetLegacySigOpCount`, the selection of chain parameters (C126) | — |
| bitcoin/core/script.py, _bignum.py | building and iterating scripts, the predicates, `GetSigOpCount`, `FindAndDelete`, `to_p2sh_scriptPubKey`, `RawSignatureHash`, `SignatureHash`, `__repr__` (C129) | |
| bitcoin/core/scripteval.py | `EvalScript`, `VerifyScript`, `VerifySignature` and what they use | libssl (a parameter), the state kept in exceptions, what is left on the caller's stack by an exception |
| bitcoin/core/key.py | `CECKey` and `CPubKey` as `CKey` and `_CheckSig` use them | libssl (a parameter), ECDH, `set_privkey`, `get_privkey` |
| bitcoin/base58.py, wallet.py | encoding, decoding, `CBase58Data` and its subclasses, outputs and addresses, `__repr__` (C153) | (`CKey` is in Model/Key.lean; the prefixes are an argument; which they are after a selection is C126, C127) |
| proofchains/core/*.py, uniquebits | all classes, on the heap model; `GuMap` verification as programs over proofs | logging |
| bitcoin/net.py, bitcoin/messages.py | every class and method | what is printed for unknown commands; `protover` of messages, which nothing reads |
| bitcoin/bloom.py | `MurmurHash3`, `CBloomFilter` | `IsRelevantAndUpdate` (not implemented) |
| lib/python-bitcoinlib/examples/spend-p2*.py | how an input is signed, for any input of any transaction | the keys (libssl), the particular transaction |
| lib/python-bitcoinlib/examples/timestamp-op-ret.py | all that is ever executed | what is printed |
| bitcoin/rpc.py | `_call` and every method of `Proxy`, over any node; `RawProxy.__init__`; the body of requests, `_batch` too (C159) | the rest of HTTP; messages of exceptions |
| bitcoin/__init__.py | the three classes of parameters and `SelectParams` | DNS seeds |
| lib/python-bitcoinlib/examples/make-bootstrap-rpc.py | all of it | what is printed to the standard error |
| sus-tool.py | the command functions over a world of files and an RPC server | argparse, logging, the content of error messages |

Three layers are connected by theorems, not by trust: the heap model of proofs represents trees
(`Holds`/`Rep`, Lemmas/Proof*.lean), code reading attributes is a `Prog` (Spec/Proof.lean) whose run on the heap is
proved equal to its evaluation on the tree, and Bitcoin objects are proved equal to their byte strings.

Not expressible in the model: argparse and network behaviour of `sus-tool.py` (what the RPC proxy returns is a parameter there; C122 makes it
the proxy of C119 over a node).

## Conformance with the test data of the repository

The definitions of the model are executable, and they have been run on the test vectors in /repo (read as text): 968 vectors of the
test suite of python-bitcoinlib (scripts, transactions with their signatures, blocks, base 58, addresses, MurmurHash3, compact sizes).
The unit tests of proofmarshal and proofchains have been translated into calls of the model (42 tests, with the real hash functions).
The model gives the expected outcome on every one of them.  The harness, the list of sources and the way to run it are in `conformance/`.
These are tests of the model, no part of any proof; no theorem refers to them.

## Axioms, theorem by theorem

Generated with `#print axioms` for every theorem named in `MANIFEST.json`.

**none** (7): `C61_never_partial`, `Btc.C75_statement`, `Btc.C75_refuted`, `Btc.C75_outpoint_partial`, `Btc.C148_vector_partial`, `Btc.C158_exact_partial`, `Btc.C158_valid_partial`

**propext** (29): `C08_derive_length`, `C08_derive_domain`, `GuMap.C55_placed_partial`, `Btc.C70_statement`, `Btc.C70_minus_one_accepted`, `Btc.C72_statement`, `Btc.C72_empty_deletes_all`, `Btc.C73_statement`, `Btc.C85_flaw64`, `Btc.C86_statement`, `Btc.C87_statement`, `Btc.C87_refuted`, `Btc.C99_statement`, `Btc.C100_statement`, `Btc.C102_statement`, `Btc.C103_statement`, `Btc.C108_statement`, `Btc.C108_refuted`, `Btc.C111_statement`, `Btc.C111_limits_partial`, `Btc.C111_read_partial`, `GuMap.C141_stepwise_partial`, `C147_refuted`, `Btc.C148_statement`, `Btc.C148_refuted`, `Btc.C148_varstring_partial`, `Rp.C155_bytes_tells`, `Btc.C158_refuted`, `Rpc.C159_ascii`

**Quot.sound** (1): `Btc.C108_write_partial`

**Quot.sound, propext** (67): `C02_varuint_total`, `C06_refuted`, `C06_refuted_trailing`, `C08_tagged_domain_separation`, `C08_derive_separation`, `C09_iter`, `C09_of_iterable`, `C09_from_bytes`, `C10_eq`, `C14_startswith`, `C16_refuted`, `C16_order_partial`, `C16_incomparable_partial`, `C18_refuted`, `C21_refuted`, `C22_split_unique`, `C28_of_pairs`, `C37_statement`, `C41_statement`, `C41_bad_number_partial`, `Seal.C46_one_digest`, `C62_statement`, `C62_constructor_checks_partial`, `Mmr.C66_statement`, `Btc.C67_raw_iter`, `Btc.C67_any_bytes`, `Btc.C67_unambiguous`, `Btc.C67_is_valid`, `Btc.C68_iterate_build`, `Btc.C69_is_push_only`, `Btc.C70_refuted`, `Btc.C70_canonical_partial`, `Btc.C72_refuted`, `Btc.C72_one_operation_partial`, `Btc.C72_invalid_partial`, `Btc.C72_any_partial`, `Btc.C73_refuted`, `Btc.C75_immutable_partial`, `Merb.C81_statement`, `Merb.C82_statement`, `Btc.C85_levels`, `Btc.C85_root`, `Btc.C85_calc_merkle_root`, `Btc.C86_refuted`, `Btc.C88_constructor`, `Btc.C91_statement`, `Btc.C101_statement`, `Btc.C108_read_partial`, `Btc.C109_seed`, `Btc.C110_outpoint`, `Btc.C111_write_partial`, `Btc.Objs.C125_refuted`, `Btc.Objs.C125_frozen_partial`, `Btc.Objs.C125_exact_partial`, `Decl.C138_refuted`, `Decl.C139_refuted`, `C147_constructor_partial`, `C147_tree_partial`, `Btc.C148_varint_partial`, `C150_list_statement`, `C150_map_statement`, `Merb.C151_classes`, `Btc.C157_key`, `Btc.C157_none`, `Btc.C157_sign`, `Btc.C157_same`, `Btc.C157_signer`

**Classical.choice, Quot.sound, propext** (466): `C01_varuint_roundtrip`, `C01_int`, `C01_int_exact`, `C02_varuint_shortest`, `C03_roundtrip`, `C03_accepts`, `C03_named`, `C03_fixed`, `C03_var`, `C04_acceptable`, `C05_truncation`, `C05_truncation_fields`, `C06_canonical_partial`, `C06_exact_partial`, `C07_fields_unambiguous`, `C07_fields_roundtrip`, `C09_constructible_wf`, `C09_getitem`, `C11_add`, `C12_invert`, `C12_invert_invert`, `C13_slice`, `Bits.C13_meaning`, `Bits.C13_reverse`, `Bits.C13_between`, `C15_common_prefix`, `C15_common_prefix_comm`, `C16_same_length_partial`, `C16_derived_partial`, `C17_serialize_canonical`, `C18_roundtrip_partial`, `C19_is_its_list`, `C19_append_total`, `C19_extend_total`, `C20_getitem`, `C21_slice_partial`, `C21_exact_partial`, `C21_steps_partial`, `C22_documented`, `C22_canonical`, `C23_is_perfect_tree`, `C24_binding`, `C24_binding_lists`, `C25_depth`, `C25_reuse`, `C26_dict`, `C27_refuted`, `C27_put_partial`, `C28_history_independent`, `C29_iteration`, `C30_remove_put`, `C30_put_remove`, `C31_issubset`, `C32_layout`, `C33_binding`, `C33_binding_dicts`, `C34_hash_is_stable`, `C34_eq_is_stable`, `C35_prune_is_transparent`, `C36_fresh`, `C36_reveals_what_was_read`, `C36_after_running`, `C37_refuted`, `C37_ship_and_verify_again_partial`, `C37_variant_lost_partial`, `C37_tx_lost_partial`, `C37_unread_partial`, `C38_round_trip`, `C39_hash_binds_content`, `C39_received`, `classes_int_binds`, `testClasses_binds`, `C40_no_contradiction`, `C40_received`, `C41_refuted`, `Btc.C42_tx_roundtrip`, `Btc.C42_txin_roundtrip`, `Btc.C42_txout_roundtrip`, `Btc.C42_outpoint_roundtrip`, `Btc.C42_tx_serializes`, `Btc.C42_outpoint_serializes`, `C42_limit`, `Btc.C43_tx_injective`, `Btc.C43_txin_injective`, `Btc.C43_txout_injective`, `Btc.C43_tx_trailing_truncated`, `Btc.C43_outpoint_trailing_truncated`, `Btc.C44_outpoint_eq`, `Seal.C45_txhash_is_txid`, `Seal.C45_hash_and_txhash`, `Seal.C45_received_pruned`, `Seal.C45_pad`, `Seal.C46_scripts`, `Seal.C46_accepts_one`, `Seal.C47_sound`, `Seal.C47_complete`, `Seal.C47_one_transaction`, `Seal.C48_template`, `Seal.C48_honest_closing`, `Seal.C49_statement`, `Seal.C49_refuted`, `Seal.C49_same_output_partial`, `Seal.C49_one_commitment_partial`, `Seal.C50_exact`, `Seal.C50_binding`, `Seal.C51_txin`, `Seal.C51_txout`, `GuMap.C52_leaf`, `GuMap.C52_inner`, `GuMap.C52_leaf_total`, `GuMap.C52_inner_total`, `GuMap.C53_from_children`, `GuMap.C53_total`, `GuMap.C53_replace`, `GuMap.C54_agree`, `GuMap.C55_statement`, `GuMap.C55_refuted`, `Sus.C56_mkseal_partial`, `Sus.C56_refuted`, `Sus.C57_mkclosetx_partial`, `Sus.C57_refuted`, `Sus.C58_mkwitness`, `Sus.C59_verifywitness_partial`, `Sus.C59_digest_partial`, `Sus.C59_refuted`, `Sus.C60_sealinfo_partial`, `Sus.C60_witnessinfo_partial`, `Sus.C60_refuted`, `C61_refuted`, `C62_refuted`, `C63_accepts_canonical`, `Mmr.C64_new`, `Mmr.C64_kept`, `Mmr.C64_prune`, `Mmr.C64_append`, `Mmr.C64_len`, `Mmr.C64_getitem`, `Mmr.C64_iter`, `Mmr.C64_hash`, `Mmr.C65_lengths`, `Mmr.C65_items`, `Mmr.C65_within_length`, `Mmr.C65_received`, `Mmr.C65_classes`, `Mmr.C66_refuted`, `Mmr.C66_never_arrives_partial`, `Mmr.C66_one_item_partial`, `Mmr.C66_one_proof_partial`, `Mmr.C66_one_variant_partial`, `Mmr.C66_one_tx_partial`, `Btc.C68_build_iterate`, `Btc.C68_add`, `Btc.C71_bn2vch`, `Btc.C71_vch2bn`, `Btc.C71_roundtrip`, `Btc.C73_valid_partial`, `Btc.C73_invalid_partial`, `Btc.C74_is_p2sh`, `Btc.C74_to_p2sh`, `Btc.C74_binding`, `Btc.C75_mutable_partial`, `Btc.C76_message`, `Btc.C76_serializes`, `Btc.C76_out_of_range`, `Btc.C76_invalid_script`, `Btc.C77_hash`, `Btc.C77_committed`, `Btc.C78_nothing_else`, `Btc.C78_input_scripts`, `Merb.C79_new`, `Merb.C79_kept`, `Merb.C79_prune`, `Merb.C79_getitem`, `Merb.C79_put`, `Merb.C79_remove`, `Merb.C79_iter`, `Merb.C79_hash`, `Merb.C80_values`, `Merb.C80_absent`, `Merb.C80_received`, `Merb.C80_classes`, `Merb.C81_refuted`, `Merb.C81_never_arrives_partial`, `Merb.C81_one_key_partial`, `Merb.C81_one_proof_partial`, `Merb.C81_one_variant_partial`, `Merb.C81_one_tx_partial`, `Merb.C82_refuted`, `Merb.C82_arrives_partial`, `Merb.C82_lost_partial`, `Sus.C83_digest`, `Sus.C83_txid`, `Sus.C83_outpoint`, `Btc.C84_accepts`, `Btc.C84_rejects`, `Btc.C84_no_inflation`, `Btc.C85_same_length`, `Btc.C85_no_duplicates`, `Btc.C85_flaw`, `Btc.C86_accepts_partial`, `Btc.C86_others_partial`, `Btc.C87_number`, `Btc.C87_positive_partial`, `Btc.C87_negative_partial`, `Btc.C87_short_partial`, `Btc.C88_header_roundtrip`, `Btc.C88_block_roundtrip`, `Btc.C88_block_injective`, `Btc.C88_hash`, `Btc.C88_strings`, `Btc.C88_hash_commits`, `Btc.C89_eval`, `Btc.C89_total`, `Btc.C90_statement`, `Btc.C90_refuted`, `Btc.C90_refuted_other`, `Btc.C90_agree_partial`, `Btc.C91_refuted`, `Btc.C91_limits_partial`, `Btc.C92_verify`, `Btc.C93_statement`, `Btc.C93_refuted`, `Btc.C93_p2sh_partial`, `Btc.C93_binding_partial`, `Btc.C94_accepts`, `Btc.C94_pushes`, `Btc.C95_accepts`, `Btc.C95_pushes`, `Btc.C96_return`, `Btc.C96_unspendable`, `Btc.C97_statement`, `Btc.C97_refuted`, `Btc.C97_exact_partial`, `Btc.C98_encode`, `Btc.C98_decode`, `Btc.C98_characters`, `Btc.C98_round_trip`, `Btc.C99_refuted`, `Btc.C99_exact_partial`, `Btc.C99_round_trip_partial`, `Btc.C99_one_text_partial`, `Btc.C100_refuted`, `Btc.C100_exact_partial`, `Btc.C100_classes_partial`, `Btc.C100_networks_partial`, `Btc.C100_scripts_partial`, `Btc.C100_pay_to_key_partial`, `Btc.C100_redeem_partial`, `Btc.C101_refuted`, `Btc.C101_exact_partial`, `Btc.C101_any_partial`, `Btc.C102_refuted`, `Btc.C102_exact_partial`, `Btc.C102_round_trip_partial`, `Btc.C102_networks_partial`, `Btc.C103_refuted`, `Btc.C103_same_class_partial`, `Mmr.C104_any`, `Mmr.C104_slice`, `Mmr.C104_prefix`, `Btc.C105_stream`, `Btc.C105_from_bytes`, `Btc.C105_sequence`, `Btc.C105_truncated`, `Btc.C105_injective`, `Btc.C106_statement`, `Btc.C106_refuted`, `Btc.C106_equal_partial`, `Btc.C106_version_partial`, `Btc.C107_statement`, `Btc.C107_refuted`, `Btc.C107_accepted_partial`, `Btc.C107_network_partial`, `Btc.C107_other_network_partial`, `Btc.C107_checksum_partial`, `Btc.C108_carried_partial`, `Btc.C109_murmur`, `Btc.C110_insert`, `Btc.C110_contains`, `Btc.C110_history`, `Btc.C110_contained`, `Btc.C110_no_false_negatives`, `Btc.C110_order`, `Btc.C110_empty`, `Btc.C110_unusable`, `Btc.C111_refuted`, `Btc.C111_injective_partial`, `Sus.C112_workflow`, `Sus.C113_one_digest`, `Btc.C114_signs`, `Btc.C114_single`, `Btc.C115_commits`, `Seal.C116_close`, `Rpc.C117_balance`, `Rpc.C117_received`, `Rpc.C117_whole`, `Rpc.C117_grammar`, `Rpc.C117_rounded`, `Rpc.C118_text`, `Rpc.C118_exists`, `Rpc.C118_double`, `Rpc.C118_request`, `Rpc.C119_get`, `Rpc.C119_send`, `Rpc.C119_tx`, `Rpc.C119_getblock`, `Rpc.C119_block`, `Rpc.C119_blockhash`, `Rpc.C119_mempool`, `Rpc.C120_index`, `Rpc.C120_txout`, `Rpc.C120_raise`, `Rpc.C120_only`, `Rpc.C120_ids`, `Rpc.C121_unspent`, `Rpc.C121_unspent_of`, `Rpc.C121_lock`, `Rpc.C121_txout`, `Rpc.C121_sign`, `Rpc.C121_verbose`, `Rpc.C121_info`, `Rpc.C121_validate`, `Rpc.C121_absent`, `Rpc.C122_given`, `Rpc.C122_workflow`, `Rpc.C122_unknown`, `Rpc.C123_refuted`, `Rpc.C123_exact_partial`, `Rpc.C123_brackets_partial`, `Rpc.C123_slash_partial`, `Rpc.C123_errors_partial`, `Btc.Objs.C124_sighash`, `Btc.Objs.C124_edits`, `Btc.Objs.C124_original`, `Btc.Objs.C125_read_partial`, `Btc.C126_refuted`, `Btc.C126_select_partial`, `Btc.C126_wallet_partial`, `Btc.C126_blocks_partial`, `Btc.C126_main_partial`, `Btc.C126_messages_partial`, `Btc.C126_genesis_partial`, `Btc.C126_core_partial`, `Btc.C127_refuted`, `Btc.C127_wallet_partial`, `Btc.C127_messages_partial`, `Boot.C128_chain`, `Boot.C128_any`, `Boot.C128_usage`, `Boot.C128_readable`, `Boot.C128_blocks`, `Rp.C129_eval`, `Rp.C129_same`, `Rp.C129_text`, `Rp.C130_outpoint`, `Rp.C130_input`, `Rp.C131_refuted`, `Rp.C131_output_partial`, `Rp.C131_tx_partial`, `Rp.C131_value_partial`, `Rp.C131_whole_partial`, `Rp.C131_header_partial`, `Rp.C132_refuted`, `Rp.C132_exact_partial`, `Rp.C132_injective_partial`, `Rp.C133_str`, `Rp.C133_texts`, `Rp.C133_tag`, `Rp.C133_bits`, `Rp.C133_bits_same`, `Rp.C134_refuted`, `Rp.C134_printable_partial`, `Rp.C134_received_partial`, `Rp.C134_raises_partial`, `Btc.C135_refuted`, `Btc.C135_made_partial`, `Btc.C135_limits_partial`, `Btc.C135_contains_partial`, `Btc.C135_inserted_partial`, `Btc.C135_errors_partial`, `Btc.C135_ordinary_partial`, `Stamp.C136_refuted`, `Stamp.C136_ends_partial`, `Stamp.C136_harmless_partial`, `Btc.C137_nearest`, `Btc.C137_order`, `Btc.C137_fails`, `Btc.C137_accepted`, `Btc.C137_compare`, `Decl.C138_number_partial`, `Decl.C138_back_partial`, `Decl.C138_flat_partial`, `Decl.C138_tag_partial`, `Decl.C138_apart_partial`, `Decl.C139_exact_partial`, `Decl.C139_governs_partial`, `Decl.C139_safe_partial`, `Decl.C139_settled_partial`, `GuMap.C140_agree`, `GuMap.C141_statement`, `GuMap.C141_refuted`, `GuMap.C141_prefixes_partial`, `GuMap.C142_one_value`, `Btc.C143_eq`, `Btc.C143_hash`, `Btc.C143_dict`, `GuMap.C144_checks`, `GuMap.C144_refuted`, `GuMap.C144_lost_partial`, `GuMap.C144_arrives_partial`, `C145_proofs`, `C145_depth`, `C145_tx`, `C145_block`, `C146_refuted`, `C146_raises_partial`, `C146_plain_partial`, `C146_bitcoin_partial`, `GuMap.C147_map_partial`, `Btc.C148_varint_back_partial`, `Btc.C148_bytes_partial`, `Btc.C148_uint256s_partial`, `Btc.C148_ints_partial`, `Sus.C149_statement`, `Sus.C149_refuted`, `Sus.C149_exact_partial`, `Sus.C149_completed_partial`, `C150_refuted`, `Mmr.C150_list_partial`, `Mmr.C150_list_exact_partial`, `Merb.C150_map_partial`, `Merb.C150_map_exact_partial`, `Merb.C151_issubset`, `C152_text`, `C152_same`, `C152_pruned`, `Btc.C153_text`, `Btc.C153_exact`, `Btc.C153_back`, `Btc.C153_networks`, `Btc.C153_same`, `Rpc.C154_address`, `Rpc.C154_survives`, `Rpc.C154_refuses`, `Rpc.C154_nodes`, `Rp.C155_address`, `Rp.C155_address_tells`, `Rp.C155_inv`, `Rp.C155_inv_tells`, `Rp.C155_locator`, `Rp.C155_locator_tells`, `Rp.C155_alert`, `Rp.C155_alert_tells`, `Rpc.C156_refuted`, `Rpc.C156_exact_partial`, `Rpc.C156_standard_partial`, `Rpc.C156_anonymous_partial`, `Rpc.C156_never_partial`, `Btc.C157_text`, `Btc.C157_repr`, `Btc.C158_when_partial`, `Rpc.C159_string`, `Rpc.C159_json`, `Rpc.C159_fails`, `Rpc.C159_tells`, `Rpc.C159_batch`
