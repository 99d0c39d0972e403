{"id": "C01", "title": "Unsigned varints round-trip", "statement": "Reading back what write_varuint(n) wrote yields exactly n and leaves the stream positioned exactly at the first byte after it, whatever follows. A negative number is not refused: it is written as one byte that is read back as its remainder modulo 128.", "quantifier": "every natural number n and every byte string following it", "why_tests_cant": "infinitely many integers and continuations; the encoding length grows without bound", "anchors": ["lib/python-proofmarshal/proofmarshal/serialize.py:StreamSerializationContext.write_varuint", "lib/python-proofmarshal/proofmarshal/serialize.py:StreamDeserializationContext.read_varuint"]}
{"id": "C02", "title": "Varint reading is total and the written form is the unique shortest one", "statement": "read_varuint either returns a non-negative integer or raises TruncationError, the latter exactly when every remaining byte has its top bit set; every byte string it accepts for n is at least as long as what write_varuint(n) writes, and one of the same length is byte-for-byte that.", "quantifier": "every byte string", "why_tests_cant": "quantifies over all byte strings, including malformed ones", "anchors": ["lib/python-proofmarshal/proofmarshal/serialize.py:read_varuint", "lib/python-proofmarshal/proofmarshal/serialize.py:write_varuint"]}
{"id": "C03", "title": "Primitive serializers round-trip", "statement": "For SerBool, FixedBytes(n), VarBytes(min,max), Digest and UInt8/16/32/64: whenever check_instance accepts v, deserializing serialize(v) followed by any bytes returns v and consumes exactly the bytes serialize produced. FixedBytes(n) raises ValueError if n is negative, VarBytes(min,max) unless 0 <= min < max.", "quantifier": "every serializer parameter, accepted value and trailing byte string", "why_tests_cant": "unbounded byte lengths and integer ranges", "anchors": ["lib/python-proofmarshal/proofmarshal/serialize.py:SerBool", "lib/python-proofmarshal/proofmarshal/serialize.py:FixedBytes", "lib/python-proofmarshal/proofmarshal/serialize.py:VarBytes", "lib/python-proofmarshal/proofmarshal/serialize.py:UInt"]}
{"id": "C04", "title": "Primitive deserializers only return acceptable values", "statement": "Whatever bytes are presented, a value returned by a primitive deserializer passes that serializer's own check_instance; otherwise an exception of the DeserializationError family is raised. (Classes of strings of 2^63 bytes or more, which Python cannot have, may raise OverflowError instead.)", "quantifier": "every serializer parameter and every input byte string", "why_tests_cant": "must hold for adversarial input", "anchors": ["lib/python-proofmarshal/proofmarshal/serialize.py:SerBool", "lib/python-proofmarshal/proofmarshal/serialize.py:FixedBytes", "lib/python-proofmarshal/proofmarshal/serialize.py:VarBytes", "lib/python-proofmarshal/proofmarshal/serialize.py:UInt"]}
{"id": "C05", "title": "Truncated data is always detected", "statement": "Deserializing any proper prefix of serialize(v) with the same serializer raises TruncationError and never returns a value.", "quantifier": "every serializer, accepted value and cut point", "why_tests_cant": "every cut point of every value", "anchors": ["lib/python-proofmarshal/proofmarshal/serialize.py:StreamDeserializationContext.fd_read"]}
{"id": "C06", "title": "Deterministic byte-level round trip", "statement": "serialize(deserialize(b)) == b for every b that deserializes (the module docstring's 'deterministic round-trip encoding').", "quantifier": "every accepted byte string", "why_tests_cant": "must exclude every alternative encoding", "anchors": ["lib/python-proofmarshal/proofmarshal/serialize.py:read_varuint", "lib/python-proofmarshal/proofmarshal/serialize.py:Serializer.deserialize"]}
{"id": "C07", "title": "Concatenated fields are unambiguous", "statement": "For a fixed list of serializers, two lists of accepted values whose field-by-field concatenated serializations are equal are equal; nothing shifts between neighbouring fields.", "quantifier": "every list of serializers and every pair of value lists", "why_tests_cant": "pairs of structures over unbounded data", "anchors": ["lib/python-proofmarshal/proofmarshal/serialize.py", "lib/python-proofmarshal/proofmarshal/proof.py:Proof.calc_data_hash"]}
{"id": "C08", "title": "Tagged hashes are domain separated", "statement": "Two HashTag calls hash the same preimage only when both tag and message agree, so equal digests for different (tag,message) pairs exhibit a SHA-256 collision on those two preimages; derive() always gives a 16 byte tag and two derivations with different (tag, subtag) hash different preimages.", "quantifier": "every pair of tags and messages", "why_tests_cant": "all pairs of tags/messages", "anchors": ["lib/python-proofmarshal/proofmarshal/serialize.py:HashTag"]}
{"id": "C09", "title": "Bits construction, iteration, length and indexing agree", "statement": "list(Bits(xs)) is xs coerced to bits, len() is its length, b[i] for -len<=i<len is the i-th element of list(b) and any other int index raises IndexError; Bits.from_bytes(buf, n) yields the first n bits of buf MSB-first and raises ValueError exactly when n is negative or exceeds 8*len(buf).", "quantifier": "every bit sequence, buffer, length and integer index", "why_tests_cant": "bit lengths crossing byte boundaries are unbounded", "anchors": ["lib/python-proofmarshal/proofmarshal/bits.py:Bits.__new__", "lib/python-proofmarshal/proofmarshal/bits.py:Bits.from_bytes", "lib/python-proofmarshal/proofmarshal/bits.py:Bits.__iter__", "lib/python-proofmarshal/proofmarshal/bits.py:Bits.__getitem__"]}
{"id": "C10", "title": "Bits equality is equality of bit sequences", "statement": "a == b exactly when list(a) == list(b), regardless of how either was built and of unused bits or bytes in its buffer.", "quantifier": "every pair of Bits reachable by any construction", "why_tests_cant": "hidden buffer contents vary independently of the visible bits", "anchors": ["lib/python-proofmarshal/proofmarshal/bits.py:Bits.__eq__"]}
{"id": "C11", "title": "Bits concatenation", "statement": "list(a + b) == list(a) + list(b).", "quantifier": "every pair of Bits", "why_tests_cant": "all length and offset combinations", "anchors": ["lib/python-proofmarshal/proofmarshal/bits.py:Bits.__add__"]}
{"id": "C12", "title": "Bits inversion", "statement": "list(~b) is list(b) with every bit flipped; ~~b == b.", "quantifier": "every Bits", "why_tests_cant": "all lengths", "anchors": ["lib/python-proofmarshal/proofmarshal/bits.py:Bits.__invert__"]}
{"id": "C13", "title": "Bits slicing", "statement": "list(b[s]) == list(b)[s] for every slice s, and b[s] raises exactly when list(b)[s] does.", "quantifier": "every Bits and every start/stop/step (present or absent, any sign)", "why_tests_cant": "unbounded lengths and slice parameters", "anchors": ["lib/python-proofmarshal/proofmarshal/bits.py:Bits.__getitem__"]}
{"id": "C14", "title": "Bits.startswith is the prefix relation", "statement": "a.startswith(b) exactly when list(b) is a prefix of list(a).", "quantifier": "every pair of Bits", "why_tests_cant": "all lengths", "anchors": ["lib/python-proofmarshal/proofmarshal/bits.py:Bits.startswith"]}
{"id": "C15", "title": "Bits.common_prefix is the longest common prefix", "statement": "a.common_prefix(b) never raises, is a prefix of both, and every common prefix of both is a prefix of it; it is commutative up to ==.", "quantifier": "every pair of Bits", "why_tests_cant": "all lengths and positions of first difference", "anchors": ["lib/python-proofmarshal/proofmarshal/bits.py:Bits.common_prefix"]}
{"id": "C16", "title": "Bits ordering is a total order consistent with equality", "statement": "Exactly one of a<b, a==b, b<a holds and < is transitive (functools.total_ordering).", "quantifier": "every pair/triple of Bits", "why_tests_cant": "an order law over all triples", "anchors": ["lib/python-proofmarshal/proofmarshal/bits.py:Bits.__lt__"]}
{"id": "C17", "title": "Bits serialization is canonical", "statement": "BitsSerializer.serialize(a) == BitsSerializer.serialize(b) exactly when a == b; unused buffer bits never leak into it.", "quantifier": "every pair of Bits", "why_tests_cant": "pairs with equal bits and different buffers", "anchors": ["lib/python-proofmarshal/proofmarshal/bits.py:BitsSerializer"]}
{"id": "C18", "title": "Bits serialization round-trips", "statement": "BitsSerializer.deserialize(BitsSerializer.serialize(b)) == b.", "quantifier": "every Bits", "why_tests_cant": "every length", "anchors": ["lib/python-proofmarshal/proofmarshal/bits.py:BitsSerializer.ctx_deserialize"]}
{"id": "C19", "title": "An MMR is its list", "statement": "For m built from xs by any mixture of append/extend: list(m)==xs, len(m)==len(xs), list(reversed(m))==reversed(xs); append never raises below 2^63 items (the largest length CPython's len() can report).", "quantifier": "every finite list of values and every way of splitting it into append/extend calls", "why_tests_cant": "list lengths unbounded; the internal assertions must never fire", "anchors": ["lib/python-proofmarshal/proofmarshal/mmr.py:MerkleMountainRange", "lib/python-proofmarshal/proofmarshal/mmr.py:make_mmr_subclass"]}
{"id": "C20", "title": "MMR integer indexing", "statement": "m[i] equals list(m)[i] for every integer i (negative included) and raises IndexError exactly when the list does.", "quantifier": "every list and every integer", "why_tests_cant": "unbounded", "anchors": ["lib/python-proofmarshal/proofmarshal/mmr.py:__getitem__"]}
{"id": "C21", "title": "MMR slicing", "statement": "list(m[s]) == list(m)[s] for every slice s with step 1, and m[s] is itself the MMR of those items.", "quantifier": "every list and every start/stop", "why_tests_cant": "all tree shapes and bounds", "anchors": ["lib/python-proofmarshal/proofmarshal/mmr.py:__getitem__"]}
{"id": "C22", "title": "MMR is canonical and equals the documented recursive construction", "statement": "The tree (hence hash and serialization) obtained by any append/extend history is a function of the item list only and is the recursive MMR(D) of the module docstring.", "quantifier": "every list and construction history", "why_tests_cant": "all sizes; structure is built incrementally but specified recursively", "anchors": ["lib/python-proofmarshal/proofmarshal/mmr.py:append", "lib/python-proofmarshal/proofmarshal/mmr.py:_merge_trees"]}
{"id": "C23", "title": "is_perfect_tree", "statement": "m.is_perfect_tree() is True exactly when len(m) is a power of two; it terminates.", "quantifier": "every MMR", "why_tests_cant": "all lengths", "anchors": ["lib/python-proofmarshal/proofmarshal/mmr.py:is_perfect_tree"]}
{"id": "C24", "title": "MMR commitments bind", "statement": "Two MMRs with equal hash hold equal lists of items, unless two different byte strings hashed while computing those hashes collide under SHA-256.", "quantifier": "every pair of MMRs", "why_tests_cant": "all pairs of lists", "anchors": ["lib/python-proofmarshal/proofmarshal/mmr.py", "lib/python-proofmarshal/proofmarshal/proof.py:calc_hash"]}
{"id": "C25", "title": "MMR append reuses mountains and stays logarithmic", "statement": "Appending creates a new tree whose depth is at most logarithmic in its length (path to any item <= 2*log2(n)+1) and every perfect mountain of the old tree is a subtree of the new one.", "quantifier": "every MMR", "why_tests_cant": "a growth bound for all n", "anchors": ["lib/python-proofmarshal/proofmarshal/mmr.py:append"]}
{"id": "C26", "title": "Merbinner tree behaves like a dict", "statement": "After any sequence of put (of fresh keys) and remove: t[k] is the last value put for k if k is present, otherwise KeyError; put/remove of one key never affects another; remove raises KeyError exactly on absent keys.", "quantifier": "every operation history and key set whose prefixes are prefix-free", "why_tests_cant": "unbounded histories and keys", "anchors": ["lib/python-proofmarshal/proofmarshal/merbinnertree.py:put", "lib/python-proofmarshal/proofmarshal/merbinnertree.py:remove", "lib/python-proofmarshal/proofmarshal/merbinnertree.py:__getitem__", "lib/python-proofmarshal/proofmarshal/merbinnertree.py:descend"]}
{"id": "C27", "title": "put() sets the key", "statement": "t.put(k, v)[k] == v for every tree and key ('Set key to value').", "quantifier": "every tree, key and value, including keys already present", "why_tests_cant": "histories re-putting a key", "anchors": ["lib/python-proofmarshal/proofmarshal/merbinnertree.py:put"]}
{"id": "C28", "title": "Merbinner tree is history independent", "statement": "Two trees holding the same key:value pairs are structurally identical, whatever order of puts and removes produced them; so they have equal hash and serialization.", "quantifier": "every pair of histories with the same final contents", "why_tests_cant": "all permutations of histories", "anchors": ["lib/python-proofmarshal/proofmarshal/merbinnertree.py:put", "lib/python-proofmarshal/proofmarshal/merbinnertree.py:remove"]}
{"id": "C29", "title": "Merbinner iteration", "statement": "keys() yields every present key exactly once, in strictly increasing key-prefix order, values()/items() correspond position by position, and len(t) is their number.", "quantifier": "every reachable tree", "why_tests_cant": "unbounded trees", "anchors": ["lib/python-proofmarshal/proofmarshal/merbinnertree.py:keys", "lib/python-proofmarshal/proofmarshal/merbinnertree.py:values", "lib/python-proofmarshal/proofmarshal/merbinnertree.py:items", "lib/python-proofmarshal/proofmarshal/merbinnertree.py:__len__"]}
{"id": "C30", "title": "remove undoes put", "statement": "t.put(k,v).remove(k) is t itself structurally for every fresh key; putting back what was removed restores the tree.", "quantifier": "every reachable tree and key", "why_tests_cant": "all shapes", "anchors": ["lib/python-proofmarshal/proofmarshal/merbinnertree.py:put", "lib/python-proofmarshal/proofmarshal/merbinnertree.py:remove"]}
{"id": "C31", "title": "issubset is map inclusion", "statement": "a.issubset(b) is True exactly when every k:v in a satisfies b[k]==v; its assertions never fire.", "quantifier": "every pair of reachable trees with no SHA-256 collision among their nodes", "why_tests_cant": "all pairs of trees", "anchors": ["lib/python-proofmarshal/proofmarshal/merbinnertree.py:issubset"]}
{"id": "C32", "title": "Merbinner node invariants", "statement": "In every reachable tree each inner node's prefix is the longest common prefix of the key prefixes below it, left holds those continuing with 0 and right with 1, and no empty node occurs below the root; put and remove assertions never fire.", "quantifier": "every operation history", "why_tests_cant": "invariant over histories", "anchors": ["lib/python-proofmarshal/proofmarshal/merbinnertree.py:InnerNode"]}
{"id": "C33", "title": "Merbinner commitments bind", "statement": "Two trees with equal hash hold the same mapping (including absence of keys) unless SHA-256 collides on two byte strings hashed for them.", "quantifier": "every pair of trees", "why_tests_cant": "all pairs", "anchors": ["lib/python-proofmarshal/proofmarshal/merbinnertree.py", "lib/python-proofmarshal/proofmarshal/proof.py:calc_hash"]}
{"id": "C34", "title": "Proof identity is stable", "statement": "The hash (and ==, hash()) of a proof object never changes: not by reading attributes, pruning, serializing, or computing other hashes, in any order.", "quantifier": "every heap of proofs and operation sequence", "why_tests_cant": "lazy caching and in-place unpruning happen in arbitrary interleavings", "anchors": ["lib/python-proofmarshal/proofmarshal/proof.py:Proof.__getattr__", "lib/python-proofmarshal/proofmarshal/proof.py:Proof.calc_hash"]}
{"id": "C35", "title": "Pruned proofs are transparent while the original is around", "statement": "prune() returns an object equal to the original; reading any attribute path through it gives the same non-proof values and equal sub-proofs as through the original.", "quantifier": "every proof, every sequence of reads, nested prunes", "why_tests_cant": "arbitrary interleavings", "anchors": ["lib/python-proofmarshal/proofmarshal/proof.py:Proof.prune", "lib/python-proofmarshal/proofmarshal/proof.py:Proof.__getattr__"]}
{"id": "C36", "title": "Serialization of a pruned proof reveals only what was read", "statement": "A freshly pruned proof serializes to 0xff followed by its 32 byte data hash; after reads, exactly the sub-proofs read through are expanded and every other sub-proof appears as 0xff plus its data hash.", "quantifier": "every proof and read sequence", "why_tests_cant": "all read sequences", "anchors": ["lib/python-proofmarshal/proofmarshal/proof.py:ctx_serialize"]}
{"id": "C37", "title": "Prune, verify, ship, verify again", "statement": "Run any computation on x.prune(), serialize it, deserialize elsewhere: the same computation gives the same result without PrunedError, and the deserialized root has the same hash as x.", "quantifier": "every proof and every computation reading attributes and hashes", "why_tests_cant": "quantifies over all computations", "anchors": ["lib/python-proofmarshal/proofmarshal/proof.py:Proof", "lib/python-proofmarshal/proofmarshal/proof.py:VarProof"]}
{"id": "C38", "title": "Unpruned proofs round-trip", "statement": "deserialize(serialize(x)) has the same class, attributes, hash and flags as x for every unpruned proof x whose attributes are of the declared classes and whose plain values serialize reversibly (C18, C42 say which Bits and transactions do); it consumes exactly the serialized bytes.", "quantifier": "every class schema and instance", "why_tests_cant": "recursive structures of unbounded depth", "anchors": ["lib/python-proofmarshal/proofmarshal/proof.py:ctx_serialize", "lib/python-proofmarshal/proofmarshal/proof.py:ctx_deserialize", "lib/python-proofmarshal/proofmarshal/proof.py:VarProof", "lib/python-proofmarshal/proofmarshal/proof.py:ProofUnion"]}
{"id": "C39", "title": "Proof hashes bind the whole content", "statement": "Two proofs with equal hash are of the same class and have equal attributes recursively as far as both are unpruned, unless two byte strings hashed for them collide.", "quantifier": "every pair of proofs with distinct class hash tags; TxProofs, whose hash has no tag, are compared among themselves", "why_tests_cant": "all pairs of DAGs", "anchors": ["lib/python-proofmarshal/proofmarshal/proof.py:calc_data_hash", "lib/python-proofmarshal/proofmarshal/proof.py:calc_hash"]}
{"id": "C40", "title": "No contradictory partial proofs", "statement": "Run the same computation on two (differently pruned) objects with the same root hash: if both finish, they give the same result, unless SHA-256 collides on strings hashed for them.", "quantifier": "every computation and every pair of partially pruned proofs, including ones for fake commitments", "why_tests_cant": "adversarially built proofs", "anchors": ["lib/python-proofmarshal/proofmarshal/proof.py", "lib/python-proofmarshal/proofmarshal/mmr.py", "lib/python-proofmarshal/proofmarshal/merbinnertree.py"]}
{"id": "C41", "title": "Bad union numbers are reported as DeserializationError", "statement": "VarProof/ProofUnion deserialization of an out-of-range variant number raises DeserializationError.", "quantifier": "every union and variant number", "why_tests_cant": "all numbers", "anchors": ["lib/python-proofmarshal/proofmarshal/proof.py:VarProof._ctx_deserialize", "lib/python-proofmarshal/proofmarshal/proof.py:ProofUnion.ctx_deserialize"]}
{"id": "C42", "title": "Bitcoin transactions round-trip", "statement": "CTransaction/CTxIn/CTxOut/COutPoint.deserialize(x.serialize()) == x with all fields equal, for every constructible value whose scripts fit in MAX_SIZE, 32 MiB; an output with a longer script is written but refused by the reader.", "quantifier": "every transaction", "why_tests_cant": "unbounded vectors and scripts", "anchors": ["lib/python-bitcoinlib/bitcoin/core/__init__.py:CTransaction", "lib/python-bitcoinlib/bitcoin/core/serialize.py"]}
{"id": "C43", "title": "Bitcoin serialization is injective and rejects trailing data", "statement": "Equal serializations imply equal transactions; deserialize of serialize(x) plus extra bytes raises DeserializationExtraDataError and of a proper prefix raises SerializationTruncationError.", "quantifier": "every transaction and suffix/cut", "why_tests_cant": "all pairs", "anchors": ["lib/python-bitcoinlib/bitcoin/core/serialize.py:Serializable.deserialize"]}
{"id": "C44", "title": "Outpoint equality", "statement": "Two outpoints compare equal exactly when hash and n are equal.", "quantifier": "every pair of outpoints", "why_tests_cant": "all pairs", "anchors": ["lib/python-bitcoinlib/bitcoin/core/__init__.py:COutPoint", "lib/python-bitcoinlib/bitcoin/core/serialize.py:Serializable.__eq__"]}
{"id": "C45", "title": "TxProof.txhash is the Bitcoin txid", "statement": "For an unpruned TxProof, and for any prune() of it, txhash equals tx.GetHash(); hash and txhash determine each other. hash is, byte by byte, the exclusive or of the txid with TX_HASH_XOR_PAD.", "quantifier": "every transaction and pruning state", "why_tests_cant": "all transactions", "anchors": ["proofchains/core/bitcoin.py:TxProof"]}
{"id": "C46", "title": "Closing scripts commit to one digest", "statement": "The three closing scripts of a digest are pairwise different, no script of one kind for one digest equals a script of another kind for any digest, and equal scripts imply equal digest (OP_RETURN) or equal Hash160 (P2SH/P2PKH); parsing them yields exactly the intended opcodes and push.", "quantifier": "every pair of 32-byte digests", "why_tests_cant": "all pairs", "anchors": ["proofchains/core/uniquebits/singleuseseal.py:verify_hash", "lib/python-bitcoinlib/bitcoin/core/script.py:CScript"]}
{"id": "C47", "title": "Witness verification is sound", "statement": "If verify() and verify_hash(h) both succeed then the input named by txinproof spends exactly the seal's outpoint and the output named by txoutproof, of a transaction with the same txid, commits to h in one of the three forms; len(h)=32.", "quantifier": "every witness object and hash", "why_tests_cant": "adversarial witnesses", "anchors": ["proofchains/core/uniquebits/singleuseseal.py:BitcoinSealWitness"]}
{"id": "C48", "title": "Honest closing always verifies", "statement": "For any digest, any non-empty set of seals with distinct outpoints, any method, any input scripts and any extra outputs appended: the closing transaction template, once given scripts, yields for each seal a witness for which verify() and verify_hash(digest) succeed, also after serializing and deserializing the witness.", "quantifier": "every digest, seal list, method and scriptSig assignment", "why_tests_cant": "all combinations", "anchors": ["proofchains/uniquebits/singleuseseal.py:make_close_seal_tx_template", "sus-tool.py:cmd_mkwitness"]}
{"id": "C49", "title": "A seal can be closed over one hash only", "statement": "Given that an outpoint is spent by only one transaction, two witnesses for the same seal that verify, verify the same hash.", "quantifier": "every pair of witnesses", "why_tests_cant": "adversarial transactions", "anchors": ["proofchains/core/uniquebits/singleuseseal.py"]}
{"id": "C50", "title": "Fake seals witness exactly one hash", "statement": "FakeSealWitness.from_hash(h).verify_hash(h2) succeeds exactly when h2 == h, and fake seals with equal hash have equal committed hash unless SHA-256 collides.", "quantifier": "every pair of digests", "why_tests_cant": "all pairs", "anchors": ["proofchains/core/uniquebits/singleuseseal.py:FakeSealWitness"]}
{"id": "C51", "title": "TxIn/TxOut proofs verify exactly in-range indexes", "statement": "TxInProof/TxOutProof.verify() succeeds exactly when the index is below the number of inputs/outputs, and then txin/txout returns that element; otherwise txin/txout raises IndexError.", "quantifier": "every transaction and index", "why_tests_cant": "all", "anchors": ["proofchains/core/bitcoin.py:TxInProof", "proofchains/core/bitcoin.py:TxOutProof"]}
{"id": "C52", "title": "GuMap nodes made from an unused prefix verify", "statement": "LeafPrefix/InnerPrefix.from_unused_prefix(...).verify() succeeds and keeps the unused prefix's seal whenever make_witness returns a witness of that seal for that hash.", "quantifier": "every key, value, children and honest witness maker", "why_tests_cant": "all", "anchors": ["proofchains/core/uniquebits/gumap.py"]}
{"id": "C53", "title": "Fake-seal trick", "statement": "InnerPrefix.from_children(l,r).verify() succeeds, its prefix is the longest common prefix of the children's, and replacing children by others with the same seals keeps verify() succeeding and the seal unchanged.", "quantifier": "all children", "why_tests_cant": "all", "anchors": ["proofchains/core/uniquebits/gumap.py:from_children"]}
{"id": "C54", "title": "GuMap evolution is append-only under unique seals", "statement": "Two fully verified GuMap trees with the same root seal never disagree: at every position reached in both, both leaves carry the same key and value, or one is still unused; unless SHA-256 collides or a seal verified two hashes.", "quantifier": "every pair of trees", "why_tests_cant": "adversarial trees", "anchors": ["proofchains/core/uniquebits/gumap.py:verify"]}
{"id": "C55", "title": "A GuMap maps each key to one value", "statement": "In a tree all of whose nodes verify, no two leaves carry the same key with different values.", "quantifier": "every tree", "why_tests_cant": "adversarial trees", "anchors": ["proofchains/core/uniquebits/gumap.py"]}
{"id": "C56", "title": "mkseal writes a readable seal", "statement": "sus-tool mkseal TXID:N FILE leaves in FILE a seal that deserializes to that outpoint.", "quantifier": "every outpoint", "why_tests_cant": "all", "anchors": ["sus-tool.py:cmd_mkseal"]}
{"id": "C57", "title": "mkclosetx spends each seal once", "statement": "The transaction printed by mkclosetx has exactly one input per given seal file, in order, no two inputs spending the same outpoint, or an error is reported.", "quantifier": "every list of seal files", "why_tests_cant": "all lists", "anchors": ["sus-tool.py:cmd_mkclosetx"]}
{"id": "C58", "title": "mkwitness is safe on the filesystem", "statement": "mkwitness never alters an existing file; every witness file it creates deserializes to a witness that passes verify() for the seal in its seal file, whatever error stops it later.", "quantifier": "every filesystem state, seal list, transaction and stopping point", "why_tests_cant": "all partial executions", "anchors": ["sus-tool.py:cmd_mkwitness"]}
{"id": "C59", "title": "verifywitness accepts exactly valid witnesses for the requested seal and digest", "statement": "verifywitness exits without error exactly when the file deserializes to a witness whose verify() passes, whose verify_hash passes for -d when given, and whose seal is the one given by --seal-file/--seal-id.", "quantifier": "every file content and option combination", "why_tests_cant": "all", "anchors": ["sus-tool.py:cmd_verifywitness"]}
{"id": "C60", "title": "Outpoints printed by the tool can be typed back in", "statement": "The TXID:N text printed by sealinfo and witnessinfo for a seal parses back (as mkseal argument) to that seal's outpoint.", "quantifier": "every outpoint", "why_tests_cant": "all", "anchors": ["sus-tool.py:ParseCOutPointArg", "sus-tool.py:cmd_sealinfo", "sus-tool.py:cmd_witnessinfo"]}
{"id": "C61", "title": "Merbinner membership test", "statement": "`k in t` is True exactly when k is one of t's keys.", "quantifier": "every reachable tree and key", "why_tests_cant": "all trees and keys", "anchors": ["lib/python-proofmarshal/proofmarshal/merbinnertree.py:__contains__"]}
{"id": "C62", "title": "The constructor rejects attributes of the wrong class", "statement": "Constructing a proof with, for an attribute declared as a proof class, a value that is not an instance of that class raises SerializerTypeError.", "quantifier": "every class and all attribute values", "why_tests_cant": "There is no bound on the classes and values that may be passed; the tests construct well-typed proofs only.", "anchors": ["lib/python-proofmarshal/proofmarshal/proof.py:44-70", "lib/python-proofmarshal/proofmarshal/proof.py:243-249", "lib/python-proofmarshal/proofmarshal/proof.py:299-305"]}
{"id": "C63", "title": "Deserialized Bits are canonical", "statement": "Whatever BitsSerializer.deserialize accepts is an encoding of the length followed byte for byte by what serialize() of the result writes after the length; in particular all unused bits of the last byte are zero.", "quantifier": "every byte string", "why_tests_cant": "every byte string and length", "anchors": ["lib/python-proofmarshal/proofmarshal/bits.py:BitsSerializer.ctx_deserialize"]}
{"id": "C64", "title": "Mountain ranges of proof objects are their lists", "statement": "An MMR made by the constructor from values, and any later append, pruned view or received copy, has len(), indexing (with IndexError), iteration and hash determined by the list of values alone; append leaves the object it was called on unchanged.", "quantifier": "every value serializer, list of values, index, and program state", "why_tests_cant": "pruned views load attributes lazily and hash caches mutate, in any interleaving with other operations", "anchors": ["lib/python-proofmarshal/proofmarshal/mmr.py:205-507", "lib/python-proofmarshal/proofmarshal/proof.py:44-240"]}
{"id": "C65", "title": "No contradictory proofs about one mountain range", "statement": "Two MMR objects with the same hash, perhaps pruned, perhaps made by an adversary with false lengths, never give two different lengths, two different items at one index, or an item at an index beyond the length.", "quantifier": "all pairs of constructed or received objects and all indices", "why_tests_cant": "quantifies over adversarial trees", "anchors": ["lib/python-proofmarshal/proofmarshal/mmr.py:18-60", "lib/python-proofmarshal/proofmarshal/mmr.py:394-451"]}
{"id": "C66", "title": "Item proofs of a mountain range can be sent", "statement": "Look up an item in a pruned view of an MMR, serialize the view, deserialize it elsewhere: the item can be looked up there.", "quantifier": "every MMR, index and receiver", "why_tests_cant": "all shapes and indices; the tests never send a partly pruned MMR", "anchors": ["lib/python-proofmarshal/proofmarshal/mmr.py:273-507", "lib/python-proofmarshal/proofmarshal/proof.py:120-240"]}
{"id": "C67", "title": "Scripts are read as the operations they consist of", "statement": "CScript.raw_iter yields opcode, data and position of every operation in order, and raises CScriptInvalidError exactly at the first place where no operation stands; the split into operations is unambiguous; is_valid tells whether there is such a place and never raises.", "quantifier": "every byte string", "why_tests_cant": "unbounded strings in four push encodings", "anchors": ["lib/python-bitcoinlib/bitcoin/core/script.py:555-610", "lib/python-bitcoinlib/bitcoin/core/script.py:724-734"]}
{"id": "C68", "title": "Building and iterating scripts are inverse", "statement": "Iterating over CScript(items) gives the items again (numbers as the number or shortest bytes); building a CScript from the items of a script gives the same bytes exactly if every push in it has the shortest length encoding; + adds one item.", "quantifier": "every list of items, every script", "why_tests_cant": "unbounded lists and integers", "anchors": ["lib/python-bitcoinlib/bitcoin/core/script.py:514-553", "lib/python-bitcoinlib/bitcoin/core/script.py:612-630", "lib/python-bitcoinlib/bitcoin/core/script.py:46-78"]}
{"id": "C69", "title": "is_push_only is exact", "statement": "is_push_only() is True exactly for byte strings that are sequences of operations all of which are pushes.", "quantifier": "every byte string", "why_tests_cant": "all byte strings, also invalid ones", "anchors": ["lib/python-bitcoinlib/bitcoin/core/script.py:671-687"]}
{"id": "C70", "title": "has_canonical_pushes accepts exactly the shortest pushes", "statement": "has_canonical_pushes() is True exactly if no push of the script could be replaced by a shorter operation pushing the same.", "quantifier": "every byte string", "why_tests_cant": "all byte strings and all possible replacements", "anchors": ["lib/python-bitcoinlib/bitcoin/core/script.py:689-717"]}
{"id": "C71", "title": "Numbers in scripts", "statement": "bn2vch gives the unique shortest byte string for a number, vch2bn gives the number of any byte string, and they are inverse.", "quantifier": "every integer, every byte string", "why_tests_cant": "unbounded integers, sign and length boundaries", "anchors": ["lib/python-bitcoinlib/bitcoin/core/_bignum.py:23-106"]}
{"id": "C72", "title": "FindAndDelete agrees with the Satoshi client", "statement": "FindAndDelete(script, sig) returns what the function of this name in the Satoshi client returns.", "quantifier": "all pairs of byte strings", "why_tests_cant": "all byte strings; consensus depends on corner cases", "anchors": ["lib/python-bitcoinlib/bitcoin/core/script.py:783-799"]}
{"id": "C73", "title": "GetSigOpCount agrees with the Satoshi client", "statement": "GetSigOpCount(fAccurate) returns the number of signature checks the Satoshi client counts.", "quantifier": "every byte string", "why_tests_cant": "all byte strings; consensus depends on corner cases", "anchors": ["lib/python-bitcoinlib/bitcoin/core/script.py:752-776"]}
{"id": "C74", "title": "Pay-to-script-hash scripts", "statement": "is_p2sh is true exactly of the 23 byte template; to_p2sh_scriptPubKey makes such a script with the hash of the redeem script, failing only on size; equal outputs mean equal redeem scripts.", "quantifier": "every byte string", "why_tests_cant": "all byte strings", "anchors": ["lib/python-bitcoinlib/bitcoin/core/script.py:661-669", "lib/python-bitcoinlib/bitcoin/core/script.py:736-750"]}
{"id": "C75", "title": "Copies of transactions", "statement": "CMutableTransaction.from_tx and CTransaction.from_tx of a valid transaction succeed and give a transaction of the wanted class with the same content.", "quantifier": "every valid transaction whose parts are of either class", "why_tests_cant": "all mixtures of mutable and immutable parts", "anchors": ["lib/python-bitcoinlib/bitcoin/core/__init__.py:153-174", "lib/python-bitcoinlib/bitcoin/core/__init__.py:210-242", "lib/python-bitcoinlib/bitcoin/core/__init__.py:280-301", "lib/python-bitcoinlib/bitcoin/core/__init__.py:303-381"]}
{"id": "C76", "title": "The message of a signature hash", "statement": "SignatureHash is the double SHA256 of the transaction with scripts, sequence numbers, inputs and outputs blanked as the hash type says, followed by the hash type; RawSignatureHash returns HASH_ONE and SignatureHash raises ValueError exactly if the input (or for SINGLE the output) does not exist; invalid scripts raise.", "quantifier": "every script, transaction, index and hash type", "why_tests_cant": "all hash types and sizes of transactions", "anchors": ["lib/python-bitcoinlib/bitcoin/core/script.py:801-865"]}
{"id": "C77", "title": "What a signature commits to", "statement": "If SignatureHash returns the same for two calls, then hash type, version, lock time and script code are the same, and so are the outputs, outputs spent and sequence numbers that the hash type covers.", "quantifier": "all pairs of calls", "why_tests_cant": "quantifies over all pairs of transactions: a commitment", "anchors": ["lib/python-bitcoinlib/bitcoin/core/script.py:801-865"]}
{"id": "C78", "title": "What a signature does not commit to", "statement": "Anything not covered by the hash type can be changed without changing the result: scripts of inputs always, outputs for NONE, other outputs for SINGLE, other inputs for ANYONECANPAY, other sequence numbers for NONE and SINGLE.", "quantifier": "all pairs of transactions that agree on what is covered", "why_tests_cant": "all changes", "anchors": ["lib/python-bitcoinlib/bitcoin/core/script.py:801-865"]}
{"id": "C79", "title": "Merbinner trees on proof objects behave as mappings", "statement": "A merbinner tree, pruned or not, answers tree[key], put, remove, keys(), values(), len() as the mapping it was built to be, whatever else the program does before and between; put and remove leave the tree they are called on as it was; the hash is that of the documented tree over the contents, however it was built.", "quantifier": "every class of trees, mapping, key, value, program and pruning", "why_tests_cant": "all histories of a heap with shared and lazily revealed parts", "anchors": ["lib/python-proofmarshal/proofmarshal/merbinnertree.py:86-199", "lib/python-proofmarshal/proofmarshal/merbinnertree.py:233-406", "lib/python-proofmarshal/proofmarshal/proof.py:44-240"]}
{"id": "C80", "title": "Merbinner trees with one hash do not contradict each other", "statement": "If two trees have the same hash, possibly received from different parties, with forged prefixes and pruned parts, then tree[key] gives the same value in both wherever both give one, and never a value in one and KeyError in the other.", "quantifier": "all pairs of trees and keys", "why_tests_cant": "a commitment: quantifies over all adversarial trees", "anchors": ["lib/python-proofmarshal/proofmarshal/merbinnertree.py:112-121", "lib/python-proofmarshal/proofmarshal/merbinnertree.py:191-199", "lib/python-proofmarshal/proofmarshal/merbinnertree.py:233-369", "lib/python-proofmarshal/proofmarshal/proof.py:44-240"]}
{"id": "C81", "title": "A pruned merbinner tree proves what was looked up in it", "statement": "Prune a tree, look up a key, serialize, deserialize elsewhere: the key can be looked up there.", "quantifier": "every tree, key and receiver", "why_tests_cant": "all trees and all receivers", "anchors": ["lib/python-proofmarshal/proofmarshal/merbinnertree.py:112-121", "lib/python-proofmarshal/proofmarshal/merbinnertree.py:191-199", "lib/python-proofmarshal/proofmarshal/merbinnertree.py:233-369", "lib/python-proofmarshal/proofmarshal/proof.py:120-240"]}
{"id": "C82", "title": "A merbinner tree can be stored", "statement": "Serialize an unpruned tree and deserialize it elsewhere: a tree with the same contents arrives.", "quantifier": "every tree and receiver", "why_tests_cant": "depends on where keys part: all sets of keys", "anchors": ["lib/python-proofmarshal/proofmarshal/merbinnertree.py:233-406", "lib/python-proofmarshal/proofmarshal/bits.py:295-317", "lib/python-proofmarshal/proofmarshal/proof.py:120-240"]}
{"id": "C83", "title": "sus-tool takes exactly well-formed digests and outpoints", "statement": "A digest argument is accepted exactly if it is 32 bytes in hexadecimal (white space around bytes allowed); an outpoint exactly if it is a 32 byte txid in hexadecimal, a colon and a number below 2^32; the value is the one written, the txid read backwards; anything else is refused.", "quantifier": "all strings", "why_tests_cant": "the text comes from the user: all strings", "anchors": ["sus-tool.py:30-62", "lib/python-bitcoinlib/bitcoin/core/__init__.py:58-66"]}
{"id": "C84", "title": "CheckTransaction accepts exactly the transactions obeying the rules", "statement": "CheckTransaction returns if and only if there are inputs and outputs, at most 10^6 bytes, no negative value, a total of at most MAX_MONEY, no output spent twice, and a coinbase script of 2 to 100 bytes or no null prevout; otherwise it raises CheckTransactionError.", "quantifier": "all transactions", "why_tests_cant": "money must not be minted by any transaction whatsoever", "anchors": ["lib/python-bitcoinlib/bitcoin/core/__init__.py:27-32", "lib/python-bitcoinlib/bitcoin/core/__init__.py:336-337", "lib/python-bitcoinlib/bitcoin/core/__init__.py:580-624"]}
{"id": "C85", "title": "Merkle trees are built as documented and commit to what they are built over", "statement": "The tree is returned level by level, deepest first, the root last; the root determines the list among lists of one length, and among lists without duplicates of hashes of strings of other than 64 bytes.", "quantifier": "all lists of txids", "why_tests_cant": "lists of all lengths; a commitment", "anchors": ["lib/python-bitcoinlib/bitcoin/core/__init__.py:443-488"]}
{"id": "C86", "title": "CheckBlock calls CheckTransaction for every transaction", "statement": "If CheckBlock accepts a block, then CheckTransaction accepts each transaction in it.", "quantifier": "all blocks, limits, times and options", "why_tests_cant": "a rule for every transaction in every block", "anchors": ["lib/python-bitcoinlib/bitcoin/core/__init__.py:653-734"]}
{"id": "C87", "title": "CheckProofOfWork accepts what the Satoshi client accepts", "statement": "A hash is accepted for nBits exactly if the target is positive, at most the limit, and at least the hash, read as a little endian number.", "quantifier": "all hashes, limits and values of nBits", "why_tests_cant": "consensus: one value treated differently splits the chain", "anchors": ["lib/python-bitcoinlib/bitcoin/core/serialize.py:299-315", "lib/python-bitcoinlib/bitcoin/core/__init__.py:636-650"]}
{"id": "C88", "title": "A block hash determines the block", "statement": "Blocks and headers survive storage; GetHash of a block is that of its header; two blocks accepted by CheckBlock that have the same hash are the same, transactions included.", "quantifier": "all pairs of blocks", "why_tests_cant": "a commitment: quantifies over all pairs of blocks", "anchors": ["lib/python-bitcoinlib/bitcoin/core/__init__.py:386-418", "lib/python-bitcoinlib/bitcoin/core/__init__.py:439-536", "lib/python-bitcoinlib/bitcoin/core/__init__.py:685-734"]}
{"id": "C89", "title": "EvalScript does what the script language says", "statement": "EvalScript leaves the stack that the documented script language defines for the script and the stack given, and raises EvalScriptError exactly if the language defines none: operations that cannot be performed, unbalanced conditionals, bytes that are no sequence of operations.", "quantifier": "all scripts, stacks and transactions", "why_tests_cant": "the input is an arbitrary program", "anchors": ["lib/python-bitcoinlib/bitcoin/core/scripteval.py:99-114", "lib/python-bitcoinlib/bitcoin/core/scripteval.py:116-202", "lib/python-bitcoinlib/bitcoin/core/scripteval.py:206-330", "lib/python-bitcoinlib/bitcoin/core/scripteval.py:333-697"]}
{"id": "C90", "title": "VerifyScript accepts what the Satoshi client accepts", "statement": "VerifyScript accepts a pair of scripts if and only if the Satoshi client does.", "quantifier": "all pairs of scripts and transactions", "why_tests_cant": "consensus: one script treated differently splits the chain", "anchors": ["lib/python-bitcoinlib/bitcoin/core/scripteval.py:199-202", "lib/python-bitcoinlib/bitcoin/core/scripteval.py:390-398", "lib/python-bitcoinlib/bitcoin/core/scripteval.py:483-487", "lib/python-bitcoinlib/bitcoin/core/scripteval.py:520-523", "lib/python-bitcoinlib/bitcoin/core/scripteval.py:702-740"]}
{"id": "C91", "title": "EvalScript enforces the documented limits", "statement": "A script accepted has at most 10000 bytes and 201 operations, pushes at most 520 bytes at a time and contains no disabled operation, even where it is not executed; no value has more than 520 bytes and there are at most 1000 values.", "quantifier": "all scripts and stacks", "why_tests_cant": "limits against denial of service have to hold for every script", "anchors": ["lib/python-bitcoinlib/bitcoin/core/scripteval.py:39-40", "lib/python-bitcoinlib/bitcoin/core/scripteval.py:357-398", "lib/python-bitcoinlib/bitcoin/core/scripteval.py:665-667"]}
{"id": "C92", "title": "VerifyScript accepts exactly if the output can be spent", "statement": "VerifyScript returns if and only if the scriptSig followed by the scriptPubKey leaves a true value, and, with SCRIPT_VERIFY_P2SH, a script hash output is spent by pushes only and the script shown leaves a true value; otherwise it raises a ValidationError; its assertion never fails.", "quantifier": "all pairs of scripts, transactions and flags", "why_tests_cant": "the input is a pair of arbitrary programs", "anchors": ["lib/python-bitcoinlib/bitcoin/core/scripteval.py:702-740"]}
{"id": "C93", "title": "SCRIPT_VERIFY_P2SH enforces BIP 16", "statement": "With the flag SCRIPT_VERIFY_P2SH, who spends an output for a script hash has to show a script with that hash and satisfy it; no other script can be shown.", "quantifier": "all scripts, both modules that export the flag", "why_tests_cant": "a binding; the flag is an object known by its identity", "anchors": ["lib/python-bitcoinlib/bitcoin/core/scripteval.py:42-45", "lib/python-bitcoinlib/bitcoin/core/scripteval.py:718-740", "lib/python-bitcoinlib/bitcoin/core/script.py:773-776"]}
{"id": "C94", "title": "A key hash output is spent exactly by a signature with the key", "statement": "VerifyScript accepts a scriptSig for DUP HASH160 h EQUALVERIFY CHECKSIG if and only if it leaves a key with hash h and below it a signature, by that key, of the signature hash of the transaction.", "quantifier": "all scriptSigs, keys, signatures, transactions", "why_tests_cant": "the scriptSig is an arbitrary program of the adversary", "anchors": ["lib/python-bitcoinlib/bitcoin/core/scripteval.py:116-134", "lib/python-bitcoinlib/bitcoin/core/scripteval.py:462-487", "lib/python-bitcoinlib/bitcoin/core/scripteval.py:702-740"]}
{"id": "C95", "title": "An m of n output is spent exactly by signatures with m of the keys", "statement": "VerifyScript accepts a scriptSig for m k1 ... kn n CHECKMULTISIG if and only if it leaves m signatures that belong, in the same order, to m of the keys.", "quantifier": "all m <= n <= 16, keys, signatures, transactions", "why_tests_cant": "exponentially many assignments of signatures to keys", "anchors": ["lib/python-bitcoinlib/bitcoin/core/scripteval.py:137-202", "lib/python-bitcoinlib/bitcoin/core/scripteval.py:458-460", "lib/python-bitcoinlib/bitcoin/core/scripteval.py:702-740"]}
{"id": "C96", "title": "Outputs that begin with OP_RETURN cannot be spent", "statement": "VerifyScript accepts no scriptSig for a scriptPubKey whose first byte is 0x6a.", "quantifier": "all scriptSigs and scripts", "why_tests_cant": "a negative statement about all programs", "anchors": ["lib/python-bitcoinlib/bitcoin/core/scripteval.py:591-592", "lib/python-bitcoinlib/bitcoin/core/scripteval.py:702-740"]}
{"id": "C97", "title": "VerifySignature accepts only inputs that spend the output under the current rules", "statement": "VerifySignature returns if and only if the input exists, refers to an output of the other transaction by its hash, and its scriptSig spends that output, according to BIP 16 too.", "quantifier": "all pairs of transactions and indices", "why_tests_cant": "arbitrary transactions", "anchors": ["lib/python-bitcoinlib/bitcoin/core/scripteval.py:743-768"]}
{"id": "C98", "title": "Base 58 is a bijection", "statement": "base58.encode gives the base 58 text of a byte string (a 1 for every leading zero byte, then the number the rest stands for, in 58 digits without 0, O, I, l), decode gives the byte string of every text of these characters and raises InvalidBase58Error for every other text; they are inverse to each other.", "quantifier": "all byte strings, all texts", "why_tests_cant": "infinitely many strings of any length; long division", "anchors": ["lib/python-bitcoinlib/bitcoin/base58.py:41-65", "lib/python-bitcoinlib/bitcoin/base58.py:67-92"]}
{"id": "C99", "title": "A base 58 text with checksum stands for one version and data", "statement": "CBase58Data(s) accepts exactly the texts of a version byte, data and the first four bytes of their double SHA-256; str gives the text back, which is the only one; everything else raises a Base58Error.", "quantifier": "all texts, versions, data", "why_tests_cant": "the checksum must be checked for every text", "anchors": ["lib/python-bitcoinlib/bitcoin/base58.py:104-111", "lib/python-bitcoinlib/bitcoin/base58.py:121-129", "lib/python-bitcoinlib/bitcoin/base58.py:139-143"]}
{"id": "C100", "title": "Addresses stand for 20 bytes and one of two forms of output", "statement": "CBitcoinAddress(s) accepts exactly the texts of 20 bytes with one of the two versions of the chain; to_scriptPubKey and from_scriptPubKey are inverse to each other; an output for the address of a key can be spent with the key and its signature; addresses of one network are refused by the other.", "quantifier": "all texts, hashes, keys", "why_tests_cant": "money sent to a wrong address is lost; arbitrary texts and scripts", "anchors": ["lib/python-bitcoinlib/bitcoin/wallet.py:37-50", "lib/python-bitcoinlib/bitcoin/wallet.py:72-86", "lib/python-bitcoinlib/bitcoin/wallet.py:88-112", "lib/python-bitcoinlib/bitcoin/wallet.py:115-145", "lib/python-bitcoinlib/bitcoin/wallet.py:196-199"]}
{"id": "C101", "title": "The address of an output is that of the key that can spend it", "statement": "P2PKHBitcoinAddress.from_scriptPubKey recognizes exactly the outputs for a key hash or a key of 33 or 65 bytes, the push being written in any way if accept_non_canonical_pushdata, and gives the hash of the key; every other script raises CBitcoinAddressError.", "quantifier": "all scripts, both options", "why_tests_cant": "arbitrary scripts", "anchors": ["lib/python-bitcoinlib/bitcoin/wallet.py:52-70", "lib/python-bitcoinlib/bitcoin/wallet.py:96-107", "lib/python-bitcoinlib/bitcoin/wallet.py:147-194"]}
{"id": "C102", "title": "Secret keys come back from their text", "statement": "CBitcoinSecret(s) accepts exactly the texts of 32 bytes, or 32 bytes and a 1 for a compressed public key, with the version of the chain; from_secret_bytes and str give a text that it accepts with the same key.", "quantifier": "all texts and keys", "why_tests_cant": "arbitrary texts", "anchors": ["lib/python-bitcoinlib/bitcoin/wallet.py:210-215", "lib/python-bitcoinlib/bitcoin/wallet.py:231-244"]}
{"id": "C103", "title": "Different addresses compare different", "statement": "Two addresses compare equal if and only if they have the same text.", "quantifier": "all pairs of addresses", "why_tests_cant": "all pairs of addresses", "anchors": ["lib/python-bitcoinlib/bitcoin/base58.py:99-101", "lib/python-bitcoinlib/bitcoin/wallet.py:33-50"]}
{"id": "C104", "title": "Slices of proofs", "statement": "A slice with start ≤ stop of a mountain range, which may be a pruned view or received as a proof, holds exactly the items the slice of the list has; the object it was taken of goes on holding its items; the slice of the first items of a range that has grown has the hash the range had.", "quantifier": "all programs, mountain ranges, pruned views, slices", "why_tests_cant": "histories of any length, every way of pruning", "anchors": ["lib/python-proofmarshal/proofmarshal/mmr.py:221-222", "lib/python-proofmarshal/proofmarshal/mmr.py:298-302", "lib/python-proofmarshal/proofmarshal/mmr.py:344-358", "lib/python-proofmarshal/proofmarshal/mmr.py:416-444"]}
{"id": "C105", "title": "Messages arrive as they were sent", "statement": "A message of any of the 15 classes is read back from the bytes to_bytes gives, whatever follows them in the stream, from which nothing more is taken; a sequence of messages is read back as such; a message cut short raises SerializationTruncationError; different messages have different bytes.", "quantifier": "all messages, networks, streams", "why_tests_cant": "arbitrary contents and lengths, arbitrary streams", "anchors": ["lib/python-bitcoinlib/bitcoin/messages.py:54-70", "lib/python-bitcoinlib/bitcoin/messages.py:72-106", "lib/python-bitcoinlib/bitcoin/messages.py:112-437", "lib/python-bitcoinlib/bitcoin/net.py:28-173"]}
{"id": "C106", "title": "A message read back is equal to the message sent", "statement": "What to_bytes gives is read back as a message of the same class with the same bytes.", "quantifier": "all messages that to_bytes accepts", "why_tests_cant": "every value of every field, old protocol versions", "anchors": ["lib/python-bitcoinlib/bitcoin/messages.py:127-159", "lib/python-bitcoinlib/bitcoin/messages.py:54-106", "lib/python-bitcoinlib/bitcoin/net.py:37-54"]}
{"id": "C107", "title": "Only messages are accepted", "statement": "stream_deserialize accepts exactly the network's four bytes, a command, the length of the body, the first four bytes of its double SHA-256 and the body, takes nothing more, and returns what the class of the command makes of the body; a message for another network and a body with another checksum raise ValueError.", "quantifier": "all byte strings", "why_tests_cant": "arbitrary streams received from strangers", "anchors": ["lib/python-bitcoinlib/bitcoin/messages.py:77-106", "lib/python-bitcoinlib/bitcoin/messages.py:442-449"]}
{"id": "C108", "title": "Alerts are written and read", "statement": "An alert whose numbers are in range can be written, and is read back.", "quantifier": "all alerts", "why_tests_cant": "every value of every field", "anchors": ["lib/python-bitcoinlib/bitcoin/net.py:105-173"]}
{"id": "C109", "title": "MurmurHash3 is MurmurHash3", "statement": "For every seed of 32 bits and every byte string MurmurHash3 returns the hash that its author defined; larger seeds raise AssertionError.", "quantifier": "all seeds, all byte strings", "why_tests_cant": "a filter is useless if the other side computes another hash for some length or value", "anchors": ["lib/python-bitcoinlib/bitcoin/bloom.py:23-25", "lib/python-bitcoinlib/bitcoin/bloom.py:27-85"]}
{"id": "C110", "title": "Bloom filters have no false negatives", "statement": "insert sets exactly the bits that stand for the element, contains tells if they are all set; after any insertions into any filter every inserted element is contained, whatever was contained still is, and an element is contained exactly if each of its bits was set or stands for an inserted element; order and repetition do not matter.", "quantifier": "all filters, all sequences of insertions, all elements", "why_tests_cant": "unbounded sequences of insertions", "anchors": ["lib/python-bitcoinlib/bitcoin/bloom.py:122-123", "lib/python-bitcoinlib/bitcoin/bloom.py:125-140", "lib/python-bitcoinlib/bitcoin/bloom.py:142-157"]}
{"id": "C111", "title": "Bloom filters are written and read", "statement": "A filter within the limits of the protocol can be written, as the protocol says, and is read back.", "quantifier": "all filters", "why_tests_cant": "every value of every field", "anchors": ["lib/python-bitcoinlib/bitcoin/bloom.py:166-186"]}
{"id": "C112", "title": "Closing seals with the tool, from the beginning to the end", "statement": "If mkclosetx prints a transaction for a digest and seal files, then any transaction with these outpoints and this first output (the signed one) can be given to mkwitness, which makes a witness file for every seal, and verifywitness, run anywhere on such a file, accepts it for the digest and for no other one.", "quantifier": "all seal files, digests, methods, signed transactions, states of the processes and files in between", "why_tests_cant": "three commands in three processes, any files and heaps in between", "anchors": ["sus-tool.py:cmd_mkclosetx", "sus-tool.py:cmd_mkwitness", "sus-tool.py:cmd_verifywitness"]}
{"id": "C113", "title": "A seal is closed over one digest", "statement": "On a chain without double spends, two witness files that mkwitness made for seals with the same outpoint, at any times and places, are accepted by verifywitness for the same digest only.", "quantifier": "all chains, witness files and digests", "why_tests_cant": "all pairs of executions, all transactions", "anchors": ["sus-tool.py:cmd_mkwitness", "sus-tool.py:cmd_verifywitness"]}
{"id": "C114", "title": "Signed inputs spend the outputs they are to spend", "statement": "Signing inputs of a transaction as the spending examples do, in any order, each with a key, hash type and form of output (key hash, or script hash) of its own, changes nothing but their scriptSigs; and in the final transaction VerifyScript accepts each of them, with any flags: no signature invalidates an earlier one. Where a signature about a single output has no output, ValueError is raised.", "quantifier": "all transactions, inputs, orders, keys, hash types and flags", "why_tests_cant": "the examples sign the only input of one transaction; signatures of all inputs depend on the same transaction while it changes", "anchors": ["lib/python-bitcoinlib/examples/spend-p2pkh-txout.py", "lib/python-bitcoinlib/examples/spend-p2sh-txout.py", "bitcoin/core/script.py:SignatureHash", "bitcoin/core/scripteval.py:VerifyScript"]}
{"id": "C115", "title": "A signature cannot be moved to another transaction", "statement": "If the scriptSig of a signed input is accepted by VerifyScript in another transaction, then that transaction agrees with the signed one in everything the hash type is about: version, lock time, the output spent and its sequence number; the outputs (all of them, or the one at the same place); the other inputs. This assumes that signatures of different hashes differ and the hashed messages do not collide.", "quantifier": "all transactions, inputs, keys, hash types and flags", "why_tests_cant": "all pairs of transactions", "anchors": ["bitcoin/core/script.py:RawSignatureHash", "bitcoin/core/scripteval.py:VerifyScript", "lib/python-bitcoinlib/examples/spend-p2pkh-txout.py", "lib/python-bitcoinlib/examples/spend-p2sh-txout.py"]}
{"id": "C116", "title": "Closing seals with a signed transaction", "statement": "For any digest, method and seals with distinct outpoints, the closing template signed with the keys of these outpoints, in any order, is accepted by VerifyScript at each input, and each of the seals gets a witness on which verify() and verify_hash(digest) succeed.", "quantifier": "all digests, seals, methods, keys, hash types, orders of signing and heaps", "why_tests_cant": "composition of three programs over all inputs", "anchors": ["proofchains/uniquebits/singleuseseal.py:make_close_seal_tx_template", "sus-tool.py:cmd_mkwitness", "lib/python-bitcoinlib/examples/spend-p2pkh-txout.py"]}
{"id": "C117", "title": "Amounts that a node reports are converted without error", "statement": "If a node answers getbalance or getreceivedbyaddress with a JSON number of up to 20 digits, the method returns the number times COIN without its fraction, and if the number is a multiple of 1/COIN it returns exactly this multiple: no amount is off by one because of rounding. Exactly the texts of the JSON grammar are read as numbers; one with more digits is rounded to 28 digits after multiplication, half to even.", "quantifier": "all number texts of the JSON grammar with up to 20 digits: sign, fraction and exponent in any form; all nodes", "why_tests_cant": "2.1 quadrillion amounts, each in many spellings", "anchors": ["bitcoin/rpc.py:Proxy.getbalance", "bitcoin/rpc.py:Proxy.getreceivedbyaddress", "bitcoin/rpc.py:RawProxy._get_response"]}
{"id": "C118", "title": "Amounts in requests are sent exactly although they are floats", "statement": "For every amount from 0 to 21 million coins the float that sendtoaddress puts into the request is written by json.dumps as a decimal number which is exactly amount/COIN; and a node that reads it as a binary64 number and rounds to 1/COIN gets the amount too.", "quantifier": "all 2.1 quadrillion amounts", "why_tests_cant": "too many amounts to try", "anchors": ["bitcoin/rpc.py:Proxy.sendtoaddress"]}
{"id": "C119", "title": "Transactions and blocks get to the node and back unchanged", "statement": "sendrawtransaction, submitblock, getrawtransaction, getblock, getblockhash and getrawmempool translate between objects of the library and what is sent: with a node that knows what it accepted, a transaction that was sent is returned, by its id, at any later time, whatever happened in between, and the id is its GetHash(); the same holds for blocks.", "quantifier": "all transactions, blocks, nodes, states and histories of requests", "why_tests_cant": "needs a node; all transactions and histories", "anchors": ["bitcoin/rpc.py:Proxy.sendrawtransaction", "bitcoin/rpc.py:Proxy.getrawtransaction", "bitcoin/rpc.py:Proxy.submitblock", "bitcoin/rpc.py:Proxy.getblock", "bitcoin/rpc.py:Proxy.getblockhash", "bitcoin/rpc.py:Proxy.getrawmempool"]}
{"id": "C120", "title": "Errors of the node are reported as documented", "statement": "If the node does not know a block, height or transaction, getblock, getblockhash, getrawtransaction and gettransaction raise IndexError, gettxout if the output does not exist; they never do so if the node answers. All other methods raise JSONRPCException with the error of the node. Every request uses the next id.", "quantifier": "all nodes, states and arguments", "why_tests_cant": "needs a node; all errors", "anchors": ["bitcoin/rpc.py:Proxy", "bitcoin/rpc.py:RawProxy._call"]}
{"id": "C121", "title": "Structured answers of the node are converted field by field", "statement": "listunspent, gettxout, getrawtransaction(verbose), signrawtransaction, getinfo and validateaddress return dictionaries in which outpoints, addresses, scripts, amounts, transactions and hashes are objects of the library with the values the node reported; the fields they replace are gone and all others are unchanged. lockunspent names outpoints as the node does. If the answer lacks a field that is to be converted, the methods raise.", "quantifier": "all nodes, answers and arguments", "why_tests_cant": "all answers", "anchors": ["bitcoin/rpc.py:Proxy.listunspent", "bitcoin/rpc.py:Proxy.gettxout", "bitcoin/rpc.py:Proxy.getrawtransaction", "bitcoin/rpc.py:Proxy.signrawtransaction", "bitcoin/rpc.py:Proxy.getinfo", "bitcoin/rpc.py:Proxy.validateaddress", "bitcoin/rpc.py:Proxy.lockunspent"]}
{"id": "C122", "title": "Closing seals through a node", "statement": "A transaction with the outputs that mkclosetx printed, sent with sendrawtransaction, can be named to mkwitness by its id: mkwitness --txid with the same node then writes a witness that verifywitness accepts for the files that were sealed. If the node does not know the id, mkwitness fails.", "quantifier": "all nodes that return what they accepted, all transactions, files and seals", "why_tests_cant": "needs a node and a wallet; all histories", "anchors": ["sus-tool.py:cmd_mkclosetx", "sus-tool.py:cmd_mkwitness", "sus-tool.py:cmd_verifywitness", "bitcoin/rpc.py:Proxy.sendrawtransaction", "bitcoin/rpc.py:Proxy.getrawtransaction"]}
{"id": "C123", "title": "Name and password of bitcoin.conf are sent to this machine only, as they are", "statement": "RawProxy made from a bitcoin.conf connects to localhost, at the port set there (or the default), with or without TLS as set, and sends the name and the password of the file. Settings may have white space and comments; later ones replace earlier ones; missing or malformed ones raise KeyError or ValueError.", "quantifier": "all files, names and passwords", "why_tests_cant": "all passwords", "anchors": ["bitcoin/rpc.py:RawProxy.__init__"]}
{"id": "C124", "title": "Signing does not change the transaction, and changes to a copy stay in the copy", "statement": "SignatureHash and RawSignatureHash change neither the transaction nor any other object, whatever their result and whatever is shared between transactions. CMutableTransaction.from_tx gives a copy with the same content; any assignments to the attributes of the copy and of its inputs and outputs change the copy accordingly and nothing else, and nothing that is done to older objects changes the copy.", "quantifier": "all transactions, including those sharing inputs, outputs and outpoints; all sequences of assignments; all hash types and indices", "why_tests_cant": "all object graphs and all sequences of assignments", "anchors": ["bitcoin/core/script.py:RawSignatureHash", "bitcoin/core/__init__.py:CMutableTransaction.from_tx", "bitcoin/core/__init__.py:CMutableTxIn.from_txin", "bitcoin/core/__init__.py:CMutableTxOut.from_txout", "bitcoin/core/__init__.py:CMutableOutPoint.from_outpoint"]}
{"id": "C125", "title": "An immutable transaction never changes", "statement": "Whatever a program does after a CTransaction was made or read, the transaction has the same content, serialize() gives the same bytes, and GetHash(), which is computed once, is their hash.", "quantifier": "all transactions and all sequences of assignments and calls", "why_tests_cant": "all programs", "anchors": ["bitcoin/core/__init__.py:CTransaction.__init__", "bitcoin/core/__init__.py:CTxIn.__init__", "bitcoin/core/serialize.py:ImmutableSerializable"]}
{"id": "C126", "title": "SelectParams chooses the network for everything", "statement": "After any calls of SelectParams, with names of networks or not, CBitcoinAddress, CBitcoinSecret, the port of the RPC server, CheckBlock and messages are those of the network chosen last, at first the main network.", "quantifier": "all sequences of calls, all texts, blocks and messages", "why_tests_cant": "tests choose a network and look at one constant; which functions look at which variable, and what the classes of parameters inherit, shows only for the right order of calls", "anchors": ["bitcoin/__init__.py:16-73", "bitcoin/core/__init__.py:538-578", "bitcoin/core/__init__.py:644", "bitcoin/messages.py:54", "bitcoin/messages.py:77", "bitcoin/wallet.py:41", "bitcoin/rpc.py:92"]}
{"id": "C127", "title": "What was made for one network is refused on every other", "statement": "An address, a secret key or a message made for one of the networks is refused when another network is chosen.", "quantifier": "all pairs of networks, all texts, all messages", "why_tests_cant": "the texts and messages of one network are infinitely many, and a test shows that one of them is refused", "anchors": ["bitcoin/__init__.py:16-46", "bitcoin/wallet.py:37-50", "bitcoin/wallet.py:240", "bitcoin/messages.py:81"]}
{"id": "C128", "title": "make-bootstrap-rpc.py writes the blocks of the chain", "statement": "Run with a height n and the name of a network, the program writes, in order, the blocks that the node of this network has at the heights 0 to n, each after MESSAGE_START of the network and its length, and nothing else; if it dies before, it has written the first of them. The file can be read back in one way only, and gives these blocks. With other arguments it prints its usage and writes nothing.", "quantifier": "all nodes, chains, heights, networks and configurations", "why_tests_cant": "chains are unbounded, and a node may answer anything at any time", "anchors": ["examples/make-bootstrap-rpc.py:29-61", "bitcoin/__init__.py:56-73", "bitcoin/rpc.py:228-254"]}
{"id": "C129", "title": "What the repr of a script evaluates to", "statement": "repr(script) never fails. If the script is valid, eval(repr(script)) is a script of the same operations with every push written in the shortest way, hence the script itself exactly if its pushes are the shortest; if it is not valid, the text is not an expression. Valid scripts with the same repr consist of the same operations.", "quantifier": "every byte string", "why_tests_cant": "all scripts, all opcodes, truncated pushes of every kind", "anchors": ["lib/python-bitcoinlib/bitcoin/core/script.py:90-94", "lib/python-bitcoinlib/bitcoin/core/script.py:249-366", "lib/python-bitcoinlib/bitcoin/core/script.py:632-659"]}
{"id": "C130", "title": "The repr of an input evaluates to the input", "statement": "eval(repr(o)) is o for every COutPoint, also the null one; eval(repr(i)) for a CTxIn has the same prevout and nSequence, and the script that eval(repr(i.scriptSig)) is.", "quantifier": "every outpoint and input", "why_tests_cant": "all hashes, indices, sequence numbers and scripts", "anchors": ["lib/python-bitcoinlib/bitcoin/core/__init__.py:147-151", "lib/python-bitcoinlib/bitcoin/core/__init__.py:207-208"]}
{"id": "C131", "title": "The repr of a transaction, or block header, evaluates to it", "statement": "eval(repr(tx)) is a transaction equal to tx if its scripts have shortest pushes, and eval(repr(header)) is the header.", "quantifier": "every transaction with values in the range of money, every header", "why_tests_cant": "all values: the text goes through floats", "anchors": ["lib/python-bitcoinlib/bitcoin/core/__init__.py:274-278", "lib/python-bitcoinlib/bitcoin/core/__init__.py:339-340", "lib/python-bitcoinlib/bitcoin/core/__init__.py:434-437"]}
{"id": "C132", "title": "Amounts as decimal numbers", "statement": "str_money_value(v) is the decimal number of bitcoins that v satoshis are.", "quantifier": "every integer", "why_tests_cant": "all amounts", "anchors": ["lib/python-bitcoinlib/bitcoin/core/__init__.py:94-100"]}
{"id": "C133", "title": "Tags and bits from their texts", "statement": "HashTag(str(t)) and eval(repr(t)) are t; a text of hexadecimal digits and dashes is accepted by HashTag exactly if it has 32 digits, and the tag is these digits; eval(repr(b)) is equal to b for every Bits b, and two Bits have the same repr exactly if they are equal.", "quantifier": "every tag, every text of digits and dashes, every Bits", "why_tests_cant": "all 2^128 tags, all lengths of bits", "anchors": ["lib/proofmarshal/proofmarshal/serialize.py:439-464", "lib/proofmarshal/proofmarshal/bits.py:24-65"]}
{"id": "C134", "title": "A received message can be printed", "statement": "repr(m) does not fail for a message m that MsgSerializable.stream_deserialize returned, whatever a peer sent (assuming time.ctime can show its time).", "quantifier": "every message a peer can send", "why_tests_cant": "all kinds of inventory, all protocol versions", "anchors": ["lib/python-bitcoinlib/bitcoin/net.py:56-65", "lib/python-bitcoinlib/bitcoin/net.py:82-103", "lib/python-bitcoinlib/bitcoin/net.py:175-176", "lib/python-bitcoinlib/bitcoin/messages.py:161-162"]}
{"id": "C135", "title": "A new Bloom filter", "statement": "CBloomFilter(n, p, tweak, flags) is, for every number n of elements and rate p between 0 and 1, within the limits of the protocol (36000 bytes, 50 hash functions), and contains nothing before something is inserted.", "quantifier": "every n from 1 to 2^1000, every float p between 0 and 1, every logarithm accurate to a few units in the last place", "why_tests_cant": "all sizes and rates; floats", "anchors": ["lib/python-bitcoinlib/bitcoin/bloom.py:88-120"]}
{"id": "C136", "title": "timestamp-op-ret.py timestamps", "statement": "Given a file, or a digest, and a node with an unspent output, the program makes, signs and sends a transaction with the digest.", "quantifier": "every node, all files, every list of arguments", "why_tests_cant": "all nodes and arguments; no test runs the examples", "anchors": ["lib/python-bitcoinlib/examples/timestamp-op-ret.py:28-77", "lib/python-bitcoinlib/bitcoin/core/__init__.py:736-773", "lib/python-bitcoinlib/bitcoin/core/script.py:868-1011"]}
{"id": "C137", "title": "The difficulty of a header", "statement": "CBlockHeader.calc_difficulty(nBits) is the float nearest to 0xffff*2^208 / target, where target is what nBits stands for; it orders headers exactly as their targets do; it fails only if the 24 low bits of nBits are 0. Every header that CheckBlockHeader accepts has such a difficulty, and of two such headers the one with the higher difficulty has the smaller target.", "quantifier": "every nBits with a target between 0 and 2^256, every pair of them", "why_tests_cant": "2^32 headers, 2^64 pairs; floats", "anchors": ["lib/python-bitcoinlib/bitcoin/core/__init__.py:420-432", "lib/python-bitcoinlib/bitcoin/core/serialize.py:308-315"]}
{"id": "C138", "title": "Variants come back as what they were", "statement": "A class that VarProof.declare_variant made a variant of the class it is derived from is written with a number that is read as this class; variants have different tags if their SUB_HASHTAG differ.", "quantifier": "every program of class statements, declarations and instantiations, before and after", "why_tests_cant": "all class hierarchies and orders of declaration; the tests have one hierarchy, with one level", "anchors": ["lib/python-proofmarshal/proofmarshal/proof.py:237-290", "lib/python-proofmarshal/proofmarshal/serialize.py:438-457"]}
{"id": "C139", "title": "Objects have the attributes that their class declares", "statement": "A proof class, given an acceptable value for each attribute in its SERIALIZED_ATTRS, makes an object that has these attributes, whatever the program did before.", "quantifier": "every program of class statements, declarations and instantiations, every class, all values", "why_tests_cant": "depends on what was instantiated before, anywhere in the process; tests instantiate a few classes, in one order", "anchors": ["lib/python-proofmarshal/proofmarshal/proof.py:38-62", "lib/python-proofmarshal/proofmarshal/proof.py:108-127"]}
{"id": "C140", "title": "Maps sealed on one chain do not contradict each other", "statement": "Given that no outpoint is spent twice on a chain, two fully verified GuMaps with the same root seal whose Bitcoin witnesses show the first outputs of transactions of the chain never disagree: at every position in both, one node is unused or both are of the same class, and leaves have the same key and value; unless a hash function collides.", "quantifier": "all maps of any size, mixing fake and Bitcoin seals, held by any two programs in any reachable states, pruned or not; all chains; all classes of maps", "why_tests_cant": "Needs all pairs of maps and all chains of transactions; the witnesses of the tests are fake ones.", "anchors": ["proofchains/core/uniquebits/gumap.py:34-157", "proofchains/core/uniquebits/singleuseseal.py:20-103"]}
{"id": "C141", "title": "A key has one value in all views of a map", "statement": "In two GuMaps as in C140, whose children all have prefixes that go on on their side, leaves with the same key have the same value.", "quantifier": "all such pairs of maps, all key2prefix functions", "why_tests_cant": "The keys that collide are in maps of different people, which no test has at once.", "anchors": ["proofchains/core/uniquebits/gumap.py:103-157"]}
{"id": "C142", "title": "Two proofs for one key of a map prove the same value", "statement": "Somebody who holds a GuMap, perhaps pruned, verifies the nodes on the way from its root to a leaf, checks that the Bitcoin witnesses on the way show the first outputs of transactions of the chain and that the prefix of the key of the leaf begins with the way. If two people do so, for maps with the same root seal and for the same key, on a chain where no outpoint is spent twice, then they see the same value, at the same place.", "quantifier": "all GuMap classes, all states of two holders, all pairs of maps (in any state, pruned in any way) and ways in them, all chains without double spends", "why_tests_cant": "The two proofs are made by parties who do not know each other, about objects built from different histories; a test can only compare pairs that it makes itself.", "anchors": ["proofchains/core/uniquebits/gumap.py:46-140", "proofchains/core/uniquebits/singleuseseal.py", "proofmarshal/proof.py"]}
{"id": "C143", "title": "Bitcoin objects are compared by content", "statement": "Outpoints, inputs, outputs, transactions, block headers and blocks compare equal (==) exactly if they are of one kind and have the same content, whether mutable or not; a block is never equal to a header; != is the opposite; equal objects have equal hash(), so that a dictionary finds an object exactly if there is a key with the same content. Comparing two objects of one kind raises exactly if one of them cannot be serialized.", "quantifier": "all pairs of objects of the ten classes with any contents, all dictionaries with different keys, any hash of byte strings", "why_tests_cant": "Pairs of objects of any classes and contents, in particular that no two different contents are written in the same way.", "anchors": ["lib/python-bitcoinlib/bitcoin/core/serialize.py:99-137", "lib/python-bitcoinlib/bitcoin/core/serialize.py:140-165", "lib/python-bitcoinlib/bitcoin/core/__init__.py:110-536"]}
{"id": "C144", "title": "A proof for one key of a map can be sent", "statement": "Prune a map, verify the nodes on the way to a key and look up key and value, serialize the pruned map: whoever deserializes the bytes can verify the same nodes, finds the same key and value, and the same hash of the map. (False: if an inner node is beside the way - which is so for some key of every map of three keys or more - its children arrive without the number of their variant and the bytes are rejected. True for all other maps.)", "quantifier": "all maps with any tags, keys, values and kinds of witnesses, all positions, all states of the heap of sender and receiver, any hash functions", "why_tests_cant": "Depends on which proofs were touched on the way, in maps of any shape, and on what the receiver already has.", "anchors": ["proofchains/core/uniquebits/gumap.py:34-100", "proofchains/core/uniquebits/gumap.py:102-152", "lib/python-proofmarshal/proofmarshal/proof.py:91-149", "lib/python-proofmarshal/proofmarshal/proof.py:179-230", "lib/python-proofmarshal/proofmarshal/proof.py:244-290"]}
{"id": "C145", "title": "Reading makes no more objects than there are bytes", "statement": "Reading a proof of any class from any bytes, whether it succeeds or fails, leaves all proofs there are as they are, makes at most one new one for each byte, and recurses no deeper than there are bytes; a transaction or block that has been read has no more inputs, outputs and bytes of script than fit into the bytes read, so that no counter in the data makes the reader allocate what the data do not hold.", "quantifier": "all tables of classes, all classes, all bytes, all states of the heap; all bytes read as a transaction or block", "why_tests_cant": "Hostile data are chosen by somebody else: a bound for every string of bytes is needed, tests show it for a few.", "anchors": ["proofmarshal/proof.py:203-230", "proofmarshal/proof.py:280-290", "proofmarshal/serialize.py:178-225", "bitcoin/core/serialize.py:190-250", "bitcoin/core/__init__.py:400-408", "bitcoin/core/__init__.py:498-507"]}
{"id": "C146", "title": "Errors in reading are DeserializationErrors", "statement": "Whatever the bytes, deserialize of a proof class either succeeds or raises DeserializationError or a subclass, documented as the base class for all errors encountered during deserialization. (False: a variant or union number too high is a NameError, bits can end with AssertionError, IndexError or OverflowError, transactions with the exceptions of python-bitcoinlib, a pruned instance of a class with variants with SerializerTypeError. True for classes without these. Transactions, blocks and headers raise only SerializationError and its subclasses.)", "quantifier": "all tables of classes, all classes, all bytes, all states of the heap; all bytes read as a transaction, block or header", "why_tests_cant": "A caller who catches the documented exception has to know what else can come out for any bytes at all.", "anchors": ["proofmarshal/serialize.py:62-66", "proofmarshal/proof.py:203-230", "proofmarshal/proof.py:280-290", "proofmarshal/proof.py:330-342", "bitcoin/core/serialize.py:48-72"]}
{"id": "C147", "title": "Trees work with the key2prefix they come with", "statement": "A subclass of MerbinnerTree that keeps the key2prefix of MerbinnerTree (key.hash) can hold any keys with different hashes; a GuMap that keeps its own can join leaves with from_children. (False: key.hash is bytes, which has no common_prefix. Such a tree holds one key at most, the second put raises AttributeError; from_children fails whenever a child is a leaf. Only classes that override key2prefix so that it returns Bits, as all those in the tests do, are usable.)", "quantifier": "all such classes, all keys and values, all sequences of put and remove; all heaps and children", "why_tests_cant": "The tests override the method everywhere; that no sequence of operations helps has to be proved.", "anchors": ["proofmarshal/merbinnertree.py:97-99", "proofmarshal/merbinnertree.py:140-162", "proofmarshal/merbinnertree.py:320-340", "proofmarshal/bits.py:247-251", "proofchains/core/uniquebits/gumap.py:27-29", "proofchains/core/uniquebits/gumap.py:124-134"]}
{"id": "C148", "title": "What the serializers write comes back", "statement": "For each serializer of bitcoin.core.serialize (VarIntSerializer, BytesSerializer, VarStringSerializer, uint256VectorSerializer, intVectorSerialzer, VectorSerializer): if serialize(x) returns b, then deserialize(b) returns x. (False: intVectorSerialzer.deserialize always returns None, having read all; byte strings of more than 2^25 bytes are written and refused when read; serialize and deserialize of VectorSerializer always raise TypeError. The rest holds, and deserialize ignores what follows.)", "quantifier": "all values, all byte strings", "why_tests_cant": "The round trip is over all values; the size limit is only met by a 32 MB string.", "anchors": ["bitcoin/core/serialize.py:163-185", "bitcoin/core/serialize.py:188-218", "bitcoin/core/serialize.py:221-231", "bitcoin/core/serialize.py:234-249", "bitcoin/core/serialize.py:251-266", "bitcoin/core/serialize.py:269-282", "bitcoin/core/serialize.py:285-296"]}
{"id": "C149", "title": "The transaction that closes seals is valid", "statement": "Whenever mkclosetx prints a transaction, CheckTransaction accepts it, and accepts it still when its inputs are signed and valid outputs are added. (False: two seals with the same outpoint and different nonces give a transaction that spends one output twice, which is rejected however it is completed, and so is one with a seal on the null outpoint. For all other seals it holds as long as the transaction is not larger than a block, which it is not for up to 24388 seals.)", "quantifier": "all digests, files and contents of files, methods, hash functions; all ways of completing the transaction", "why_tests_cant": "The combinations of seals are unlimited; no test passes what mkclosetx prints to CheckTransaction.", "anchors": ["sus-tool.py:117-136", "proofchains/uniquebits/singleuseseal.py:17-34", "bitcoin/core/__init__.py:584-623"]}
{"id": "C150", "title": "A received tree agrees with itself", "statement": "Deserialize a MerkleMountainRange or MerbinnerTree that somebody else serialized, and iterate over it without meeting anything pruned: len() is the number of items iterating gives and r[i] is the i-th of them; every key of keys() can be looked up and has the value values() gives for it. (False: nothing checks the stored lengths or prefixes. A sender can make a mountain range of two items with len() 7, and a tree whose keys() shows a key for which t[key] is a KeyError, under a hash that commits to both. What indexing or lookup does return is always one of what iterating shows; when all of it is found is said exactly.)", "quantifier": "all classes, states, bytes received and indexes or keys", "why_tests_cant": "Tests deserialize only what the library serialized; senders may send any bytes.", "anchors": ["lib/python-proofmarshal/proofmarshal/mmr.py:381-451", "lib/python-proofmarshal/proofmarshal/merbinnertree.py:112-120", "lib/python-proofmarshal/proofmarshal/merbinnertree.py:310-368", "lib/python-proofmarshal/proofmarshal/proof.py:203-230"]}
{"id": "C151", "title": "issubset of pruned trees is that of the trees", "statement": "Of two trees of a MerbinnerTree class, each made with the class or a pruned view of such, a.issubset(b) returns True exactly if every key of a is a key of b with an equal value, as the docstring says; it never raises, and the trees hold what they held before. Trees of different classes raise TypeError.", "quantifier": "every class of trees, all contents, every history of pruning and reading before, proofs or plain values as values", "why_tests_cant": "all pairs of trees and all states of pruning; answers by comparing hashes must agree with answers by comparing entries", "anchors": ["lib/python-proofmarshal/proofmarshal/merbinnertree.py:MerbinnerTree.issubset", "lib/python-proofmarshal/proofmarshal/merbinnertree.py:MerbinnerTreeInnerNode._MerbinnerTree__issubset", "lib/python-proofmarshal/proofmarshal/merbinnertree.py:MerbinnerTreeLeafNode._MerbinnerTree__issubset"]}
{"id": "C152", "title": "repr of a proof tells which proof it is", "statement": "repr(p) of any proof is the name of its class and its hash in hexadecimal, and raises only what p.hash raises. Two proofs have the same repr exactly if their classes have the same name and p == q. A pruned proof has the repr of the original, and nothing done to proofs changes a repr.", "quantifier": "all classes of proofs, all proofs, perhaps pruned or deserialized, every history of reading, pruning, serializing between", "why_tests_cant": "all proofs and all states of pruning and caching of the hash", "anchors": ["lib/python-proofmarshal/proofmarshal/proof.py:Proof.__repr__", "lib/python-proofmarshal/proofmarshal/proof.py:Proof.__eq__", "lib/python-proofmarshal/proofmarshal/proof.py:Proof.__getattr__"]}
{"id": "C153", "title": "repr of addresses and secret keys can be evaluated", "statement": "repr(x) of an address, a secret key or a CBase58Data made by a constructor is the name of its class called with str(x); with the same network selected, eval(repr(x)) is an object of the same class, bytes and version, and two objects have the same repr only if all three are the same. With the other network selected, evaluating the repr of an address raises ValueError and that of a secret key CBitcoinSecretError.", "quantifier": "all bytes, versions, classes and ways to construct them, both networks", "why_tests_cant": "all addresses and keys", "anchors": ["bitcoin/base58.py:CBase58Data.__repr__", "bitcoin/base58.py:CBase58Data.__str__", "bitcoin/base58.py:CBase58Data.__new__", "bitcoin/wallet.py:CBitcoinAddress", "bitcoin/wallet.py:CBitcoinSecret"]}
{"id": "C154", "title": "Addresses a node hands out arrive", "statement": "getnewaddress, getaccountaddress and getrawchangeaddress send the account that is asked for and return the address whose text the node answered, of the class for its version; if the text is of another network, of a key, or no base 58, they raise Base58Error. addnode, addnodeonetry and removenode send the command of this name.", "quantifier": "all nodes, states, accounts and addresses", "why_tests_cant": "needs a node; all addresses", "anchors": ["bitcoin/rpc.py:Proxy.getnewaddress", "bitcoin/rpc.py:Proxy.getaccountaddress", "bitcoin/rpc.py:Proxy.getrawchangeaddress", "bitcoin/rpc.py:Proxy.addnode", "bitcoin/rpc.py:Proxy.addnodeonetry", "bitcoin/rpc.py:Proxy.removenode"]}
{"id": "C155", "title": "What the printed parts of messages tell", "statement": "repr of a CAddress shows its time, services, host and port, each in its place, and two addresses with the same repr have the same four, whatever text the host is. repr of a CInv shows the name of its kind and its hash in hexadecimal, and of a CBlockLocator its version and its hashes in their order; two with the same repr are equal. repr of a CAlert shows the lengths of message and signature and nothing else.", "quantifier": "all field values, also those no peer can send", "why_tests_cant": "all values; texts that contain the separators", "anchors": ["bitcoin/net.py:CAddress.__repr__", "bitcoin/net.py:CInv.__repr__", "bitcoin/net.py:CBlockLocator.__repr__", "bitcoin/net.py:CAlert.__repr__"]}
{"id": "C156", "title": "RawProxy asks the server of its URL", "statement": "RawProxy(service_url) with http(s)://name:password@host:port/path?query connects to that host, at that port or else the standard port of the scheme, with TLS exactly for https, sends that name and password, and asks for that path without the query.", "quantifier": "all URLs whose parts are in their places", "why_tests_cant": "all names, passwords, hosts and paths", "anchors": ["bitcoin/rpc.py:RawProxy.__init__", "bitcoin/rpc.py:RawProxy._call"]}
{"id": "C157", "title": "A private key and its public key belong together", "statement": "CKey(secret, compressed) of 32 bytes has as its pub the public key of the secret in the form asked for, which is valid, fully valid and compressed exactly if asked for; a ValueError tells that there is none. sign refuses what is not bytes with a TypeError and other lengths than 32 with a ValueError; else the signature is accepted by pub, by CPubKey of the bytes of pub, and by the interpreter of scripts. A key written as text and read back is the same key. Public keys with the same repr are equal.", "quantifier": "all secrets, hashes and signatures; every libssl that computes with points and signatures as it should", "why_tests_cant": "all secrets and hashes, and which objects share a key", "anchors": ["bitcoin/wallet.py:CKey.__init__", "bitcoin/wallet.py:CKey.sign", "bitcoin/core/key.py:CECKey.sign", "bitcoin/core/key.py:CECKey.set_pubkey", "bitcoin/core/key.py:CPubKey.__new__", "bitcoin/core/key.py:CPubKey.verify", "bitcoin/core/key.py:CPubKey.__repr__"]}
{"id": "C158", "title": "Bytes that are no public key accept no signature", "statement": "If CPubKey(buf).is_fullyvalid is False, then its verify accepts no signature for any hash; nor does OP_CHECKSIG with buf as the public key.", "quantifier": "all byte strings, hashes and signatures", "why_tests_cant": "a forged signature cannot be found by trying", "anchors": ["bitcoin/core/key.py:CPubKey.__new__", "bitcoin/core/key.py:CPubKey.verify", "bitcoin/core/key.py:CECKey.verify", "bitcoin/core/scripteval.py:_CheckSig"]}
{"id": "C159", "title": "What is sent to the node is the request", "statement": "The body of the HTTP request is a JSON text of an object with the version, the method, the arguments and the id, so two requests with the same body are the same; whatever characters a text in the arguments has (quotes, backslashes, line feeds, characters of any alphabet), it is read back as it is, by the rules of JSON, and sent as printable ASCII. A request fails with a TypeError exactly if there is a Decimal somewhere in the arguments. A batch is a JSON text too and tells what it consists of.", "quantifier": "all methods, arguments, nesting and texts", "why_tests_cant": "all texts and nestings; injection of JSON through an argument", "anchors": ["bitcoin/rpc.py:RawProxy._call", "bitcoin/rpc.py:RawProxy._batch"]}
