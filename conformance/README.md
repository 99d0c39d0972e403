# Conformance of the model with the test data of the repository

These are tests, not proofs: they support the claim that the definitions under `lean/Verif/Model` say what the Python code does.

`run.sh` takes the vectors of the test suite of python-bitcoinlib out of `/repo` as text and runs the model on each of them.
The model is run as a program: the definitions that the theorems are about are the ones that are executed.
`Conf.lean.txt` adds, for the parameters of the model, SHA-1 and the verification of ECDSA signatures on secp256k1 (SHA-256 and RIPEMD-160 are in the model).

| source (lib/python-bitcoinlib/bitcoin/tests) | vectors | function of the model |
|---|---|---|
| data/script_valid.json, data/script_invalid.json | 710 | `verifyScript` |
| data/tx_valid.json, data/tx_invalid.json | 51 | `CTransaction.deser`, `checkTransaction`, `verifyScript` with signatures |
| data/checkblock_valid.json, data/checkblock_invalid.json | 11 | `checkBlock`, `checkBlockHeader` |
| data/base58_encode_decode.json | 12 | `b58encode`, `b58decode` |
| test_core.py | 4 | `CBlock.deser`, `CBlock.calcMerkleRoot` |
| test_wallet.py | 26 | `newB58`, `addrFromScript`, `p2pkhFromScript`, `p2pkhFromPubkey`, `toScriptPubKey`, `newSecret` |
| test_bloom.py | 14 | `murmurHash3` |
| test_script.py | 117 | `isP2sh`, `isPushOnly`, `hasCanonicalPushes`, `isUnspendable`, `isValidScript`, `encodePushdata` |
| test_serialize.py | 23 | `serVarInt`, `deserVarInt` |

`ConfProof.lean.txt` has the unit tests of proofmarshal (test_bits.py, test_proof.py, test_mmr.py, test_merbinnertree.py) and of proofchains
(test_singleuseseal.py, test_gumap.py), translated line by line into calls of the model, with the real hash functions: 42 tests.
Assertions about Python itself (wrong argument types, immutability, identity of the empty `Bits`) are left out.

Last run: 968 vectors and 42 tests, no disagreement.
