{"id": "C01", "title": "Sign-then-verify, ZKB++ parameter sets", "statement": "For every Picnic parameter set of the ZKB++ family (L1/L3/L5 in FS, UR and full variants), whenever picnic_sign returns 0 for a well-formed private key whose embedded public key satisfies ciphertext = LowMC(secret, plaintext), picnic_verify on the same message, the embedded public key and the returned signature bytes (length = returned signature_len) returns 0.", "quantifier": "all nine ZKB++ parameter sets, all keys, all messages (below the 32-bit sponge limit of C24), all salts/seeds derived from them, all Fiat-Shamir challenges, all contents of uninitialised memory", "why_tests_cant": "The set of keys x messages is astronomically large; every run hits only one of 3^T challenges, so the three verifier branches interact in combinations no test suite enumerates.", "anchors": ["/repo/picnic.c: picnic_sign, picnic_verify", "/repo/picnic_impl.c: sign_picnic1, prove, verify, verifyProof, mpc_LowMC, mpc_LowMC_verify"]}
{"id": "C02", "title": "Sign-then-verify, Picnic3 parameter sets", "statement": "For Picnic3 L1/L3/L5, whenever picnic_sign returns 0 for a well-formed matching private key, picnic_verify on the same message, public key and returned signature returns 0.", "quantifier": "all three Picnic3 parameter sets, all matching keys, all messages, all opened-round sets and all unopened-party choices, all contents of uninitialised memory", "why_tests_cant": "There are C(250,36)*16^36 challenges for L1 alone; which tree nodes are revealed, and whether the party with the aux tape is opened, depends on the challenge.", "anchors": ["/repo/picnic3_impl.c: sign_picnic3, verify_picnic3, simulateOnline, computeAuxTape", "/repo/tree.c"]}
{"id": "C03", "title": "Signing succeeds when the caller provides picnic_signature_size bytes", "statement": "For a well-formed matching private key and a buffer of at least picnic_signature_size(params) bytes, picnic_sign never reports an error, never aborts and never has undefined behaviour: if challenge sampling terminates it returns 0 and sets signature_len to at most picnic_signature_size(params).", "quantifier": "all parameter sets, keys, messages (below the sponge limit), challenges", "why_tests_cant": "The Picnic3 size is a worst-case bound on seed-tree and Merkle-tree openings over all challenges; tests see random challenges, which are far from the worst case.", "anchors": ["/repo/picnic.c: picnic_signature_size, picnic_sign", "/repo/tree.c: getRevealedNodes, getRevealedMerkleNodes", "/repo/picnic3_impl.c: serializeSignature2"]}
{"id": "C04", "title": "Published maximum sizes are true maxima", "statement": "For every valid parameter set picnic_signature_size is positive and at most PICNIC_MAX_SIGNATURE_SIZE, written public keys fit in PICNIC_MAX_PUBLICKEY_SIZE and written private keys in PICNIC_MAX_PRIVATEKEY_SIZE bytes; for every other value of the parameter argument picnic_signature_size returns PICNIC_MAX_SIGNATURE_SIZE (an upper bound for every parameter set).", "quantifier": "all values of the parameter enumeration, including out-of-range ones", "why_tests_cant": "Callers allocate static buffers from the macros; a single parameter set or out-of-range enum value exceeding the macro is a buffer overflow.", "anchors": ["/repo/picnic.h: PICNIC_MAX_SIGNATURE_SIZE, PICNIC_MAX_PUBLICKEY_SIZE, PICNIC_MAX_PRIVATEKEY_SIZE", "/repo/picnic.c: picnic_signature_size, get_param_set"]}
{"id": "C05", "title": "A short signature buffer is refused without touching it", "statement": "If picnic_sign fails, or the provided *signature_len is smaller than the bytes required, it returns a non-zero code, leaves *signature_len and every byte of the signature buffer unchanged; on success no byte at or beyond the returned length is written and the returned length never exceeds the provided one.", "quantifier": "all keys, messages, buffer lengths and previous buffer contents", "why_tests_cant": "Requires considering every buffer length and every actual (challenge dependent) signature length.", "anchors": ["/repo/picnic.c: picnic_sign", "/repo/picnic_impl.c: serializeSignature", "/repo/picnic3_impl.c: serializeSignature2"]}
{"id": "C06", "title": "ZKB++ signature lengths are exactly predictable", "statement": "Every signature produced by picnic_sign under a UR parameter set has length exactly picnic_signature_size(params); under an FS/full parameter set its length is picnic_signature_size(params) minus stateSizeBytes for each round with challenge 0.", "quantifier": "all keys, messages, challenges", "why_tests_cant": "Length depends on the challenge for every round; tests only sample it.", "anchors": ["/repo/picnic_impl.c: serializeSignature, computeInputShareSize", "/repo/picnic.c: picnic_signature_size"]}
{"id": "C07", "title": "Key generation yields a valid key pair or an error", "statement": "picnic_keygen returns 0 exactly when both pointers are non-NULL, the parameter set is valid and the random source succeeds; then the secret/plaintext are the random bytes truncated to the LowMC block length, ciphertext = LowMC(secret, plaintext), the copy of the public key inside the private key equals the public key, all padding bits and unused bytes are zero, and picnic_validate_keypair returns 0.", "quantifier": "all outputs and failures of the random source, all parameter values, NULL pointers", "why_tests_cant": "All 2^(2n) outputs of the random source must be covered, including padding bits for the 129/255-bit instances.", "anchors": ["/repo/picnic.c: picnic_keygen, picnic_validate_keypair"]}
{"id": "C08", "title": "picnic_validate_keypair decides the LowMC relation", "statement": "For non-NULL arguments picnic_validate_keypair returns 0 if and only if the parameter sets agree, are valid, and the first stateSizeBytes bytes of the ciphertext equal LowMC(secret, plaintext); the result does not depend on bytes of the key structs beyond stateSizeBytes nor on padding bits of secret or plaintext.", "quantifier": "all key structs (including garbage in unused bytes)", "why_tests_cant": "Universal statement over all key structs and over all stale memory contents.", "anchors": ["/repo/picnic.c: picnic_validate_keypair", "/repo/picnic_impl.c: LowMCEnc, matrix_mul, substitution"]}
{"id": "C09", "title": "picnic_validate_keypair tolerates NULL", "statement": "picnic_validate_keypair(NULL, pk) and picnic_validate_keypair(sk, NULL) return an error code rather than invoking undefined behaviour (the function contains an explicit NULL check).", "quantifier": "all combinations of NULL/non-NULL arguments", "why_tests_cant": "Undefined behaviour is not observable by a passing test run.", "anchors": ["/repo/picnic.c: picnic_validate_keypair lines 591-605"]}
{"id": "C10", "title": "Public key serialisation round trip", "statement": "If picnic_write_public_key succeeds for a key with zero padding bits, picnic_read_public_key on the written bytes (or any longer buffer starting with them) returns 0 and yields a key with the same parameter set and same plaintext and ciphertext block; conversely whenever picnic_read_public_key accepts a buffer, writing the key back reproduces exactly the consumed bytes (the encoding is canonical).", "quantifier": "all keys, all byte strings, all prior contents of the destination struct", "why_tests_cant": "All byte strings must be considered as inputs.", "anchors": ["/repo/picnic.c: picnic_write_public_key, picnic_read_public_key"]}
{"id": "C11", "title": "Private key serialisation round trip", "statement": "Same as the public key property for picnic_write_private_key / picnic_read_private_key, including the embedded public key.", "quantifier": "all keys, all byte strings, all prior contents of the destination struct", "why_tests_cant": "All byte strings must be considered as inputs.", "anchors": ["/repo/picnic.c: picnic_write_private_key, picnic_read_private_key"]}
{"id": "C12", "title": "Malformed keys are rejected, without reading or writing out of bounds", "statement": "picnic_read_public_key/picnic_read_private_key return 0 if and only if the buffer is long enough for the parameter set named in its first byte, that byte names a valid set and all padding bits of each field are zero; they never read at or beyond buflen (for buflen >= 1); writers refuse buffers that are too short without writing to them.", "quantifier": "all byte strings and all buffer lengths", "why_tests_cant": "Exact accept/reject characterisation over all inputs.", "anchors": ["/repo/picnic.c: picnic_read_public_key, picnic_read_private_key, picnic_write_public_key, picnic_write_private_key", "/repo/picnic_impl.c: arePaddingBitsZero"]}
{"id": "C13", "title": "picnic_verify never reads past signature_len", "statement": "For every byte string passed as signature, picnic_verify (and print_signature) never reads a byte at or after signature + signature_len.", "quantifier": "all parameter sets, all signature byte strings and lengths", "why_tests_cant": "The over-read needs a specially truncated input and is silent without a memory sanitizer.", "anchors": ["/repo/picnic_impl.c: deserializeSignature", "/repo/picnic3_impl.c: deserializeSignature2", "/repo/picnic.c: picnic_verify, print_signature"]}
{"id": "C14", "title": "picnic_verify is total and memory safe on hostile signatures", "statement": "For every public key struct with a valid parameter set, every message below the sponge limit and every signature byte string, picnic_verify under an FS/full or Picnic3 parameter set returns 0 or a non-zero error code: no out-of-bounds access, no assertion failure, no use or free of uninitialised pointers.", "quantifier": "all signature byte strings, all messages, all public keys", "why_tests_cant": "Attacker-controlled inputs: fuzzing samples, it cannot exclude.", "anchors": ["/repo/picnic.c: picnic_verify", "/repo/picnic_impl.c: verify, verifyProof, deserializeSignature", "/repo/picnic3_impl.c: verify_picnic3, deserializeSignature2"]}
{"id": "C15", "title": "Accepted signatures have exactly one length", "statement": "If picnic_verify accepts a signature then it rejects the same signature with any bytes appended.", "quantifier": "all signatures, all suffixes", "why_tests_cant": "Quantifies over all suffixes.", "anchors": ["/repo/picnic_impl.c: deserializeSignature", "/repo/picnic3_impl.c: deserializeSignature2"]}
{"id": "C16", "title": "Signature encodings are canonical", "statement": "Decoding a signature and re-encoding it reproduces the decoded bytes: two different byte strings of the same length accepted by the decoder for the same parameter set decode to different signatures, and the bytes written by picnic_sign decode to the signature that was computed.", "quantifier": "all signatures, all byte strings", "why_tests_cant": "Universal over byte strings.", "anchors": ["/repo/picnic_impl.c: serializeSignature, deserializeSignature", "/repo/picnic3_impl.c: serializeSignature2, deserializeSignature2"]}
{"id": "C17", "title": "Fiat-Shamir challenges are always well formed", "statement": "Every ZKB++ challenge computed consists of numMPCRounds values in {0,1,2} followed by zero padding; every Picnic3 challenge consists of exactly numOpenedRounds pairwise distinct round indices below numMPCRounds and as many party indices below numMPCParties. The rejection sampling result does not depend on how many iterations are allowed once it has terminated.", "quantifier": "all hash outputs", "why_tests_cant": "Quantifies over all digests produced by the hash function.", "anchors": ["/repo/picnic_impl.c: H3, setChallenge, getChallenge", "/repo/picnic3_impl.c: expandChallengeHash, bitsToChunks, appendUnique"]}
{"id": "C18", "title": "A signature is bound to its message and public key", "statement": "If one signature byte string is accepted for two different (message, public key) pairs under the same parameter set, an explicit collision of the challenge hash exists: two different hash inputs, computed from the data at hand, with the same challenge (same digest for Picnic3).", "quantifier": "all signatures, messages, keys", "why_tests_cant": "Universal over all pairs of messages; needs a reduction argument.", "anchors": ["/repo/picnic_impl.c: H3, verify", "/repo/picnic3_impl.c: HCP, verify_picnic3"]}
{"id": "C19", "title": "One ZKB++ round is a proof of knowledge of the secret key", "statement": "From accepting openings of the same three committed views for the challenges 0, 1 and 2 (or pairwise consistent views), the XOR of the three input shares is a secret key k with LowMC(k, plaintext) = ciphertext.", "quantifier": "all openings, all views, all public keys", "why_tests_cant": "This is the security argument of the scheme; a test can only run honest provers.", "anchors": ["/repo/picnic_impl.c: verifyProof, mpc_LowMC_verify, mpc_AND_verify"]}
{"id": "C20", "title": "Opened ZKB++ views hide the secret key", "statement": "The two opened views, the opened random tapes and the third output share carry no information about the key: for any two secrets mapping the plaintext to the same ciphertext, and any randomness used with the first, there is randomness of the unopened party for the second secret giving exactly the same opened data. With uniformly random shares and tapes, what is opened in all repetitions together has exactly the distribution of the output of a simulator that knows only the public key and the challenges. What sign publishes is the result of this computation on shares and tapes derived from the seeds.", "quantifier": "all secrets, all shares, all tapes, all challenges", "why_tests_cant": "Statement about all randomness, i.e. about a distribution.", "anchors": ["/repo/picnic_impl.c: mpc_LowMC, mpc_AND, mpc_LowMC_verify, prove, sign_picnic1"]}
{"id": "C21", "title": "The Picnic3 MPC simulation computes LowMC", "statement": "With the aux tape computed in preprocessing, the simulated online phase succeeds and outputs the public ciphertext if and only if the signing key encrypts the plaintext to it, for all 16 party tapes; consequently picnic_sign under a Picnic3 parameter set returns an error exactly when the key pair does not match.", "quantifier": "all tapes, all secrets, all plaintexts", "why_tests_cant": "Tapes are pseudo-random; all 2^(16*tape bits) are covered by the proof.", "anchors": ["/repo/picnic3_impl.c: computeAuxTape, aux_mpc_AND, aux_mpc_sbox, simulateOnline, mpc_sbox, mpc_AND"]}
{"id": "C22", "title": "The ZKB++ MPC simulation computes LowMC", "statement": "For all random tapes and all sharings, the XOR of the three output shares equals LowMC(secret, plaintext); picnic_sign under a ZKB++ parameter set returns an error when the key pair does not match.", "quantifier": "all tapes, sharings, secrets and plaintexts", "why_tests_cant": "All random tapes are covered.", "anchors": ["/repo/picnic_impl.c: mpc_LowMC, mpc_substitution, mpc_AND, sign_picnic1"]}
{"id": "C23", "title": "Incremental hashing equals one-shot SHAKE", "statement": "Absorbing data in any sequence of chunks (each below the 32-bit limit) and squeezing output in any sequence of chunks gives the same bytes as SHAKE128/SHAKE256 (FIPS 202) of the concatenation.", "quantifier": "all data, all chunkings, all output lengths", "why_tests_cant": "All chunk boundaries and lengths, unbounded message length.", "anchors": ["/repo/hash.c", "/repo/sha3/KeccakSponge.inc: SpongeAbsorb, SpongeSqueeze", "/repo/sha3/KeccakHash.c"]}
{"id": "C24", "title": "Hashing arbitrarily long messages is safe", "statement": "HashUpdate (hence picnic_sign/picnic_verify) terminates and stays in bounds for every message length representable in size_t.", "quantifier": "all message lengths", "why_tests_cant": "The failures need inputs of 4 GiB and more.", "anchors": ["/repo/sha3/KeccakSponge.inc: SpongeAbsorb lines with partialBlock", "/repo/sha3/KeccakP-1600-reference.c: KeccakP1600_AddBytes", "/repo/hash.c: HashUpdate"]}
{"id": "C25", "title": "The Keccak permutation in the library is Keccak-p[1600,24]", "statement": "The word-oriented permutation code computes, for every 1600-bit state, the composition of 24 rounds of theta, rho, pi, chi, iota as defined bitwise in FIPS 202.", "quantifier": "all 2^1600 states", "why_tests_cant": "Input space 2^1600.", "anchors": ["/repo/sha3/KeccakP-1600-reference.c"]}
{"id": "C26", "title": "Seed trees open exactly the non-hidden leaves", "statement": "For any number of leaves and any non-empty hidden set, the data output when revealing a seed tree lets the receiver recover every non-hidden leaf seed with its original value, while no ancestor-or-self of a hidden leaf is ever output or recovered; the number of bytes output equals the size the receiver computes from the hidden set alone.", "quantifier": "all tree sizes, all hidden sets, all root seeds and salts", "why_tests_cant": "Exponentially many hidden sets and unbounded tree sizes; leaking one hidden leaf breaks zero knowledge without failing verification.", "anchors": ["/repo/tree.c: generateSeeds, revealSeeds, revealSeedsSize, reconstructSeeds, getRevealedNodes, expandSeeds"]}
{"id": "C27", "title": "Merkle tree openings verify", "statement": "For any number of leaves and any set of missing leaves (not all), opening a Merkle tree for the missing leaves and verifying with the remaining leaves recomputes exactly the original root.", "quantifier": "all tree sizes, all missing sets, all leaf data", "why_tests_cant": "Exponentially many missing sets.", "anchors": ["/repo/tree.c: buildMerkleTree, openMerkleTree, addMerkleNodes, verifyMerkleTree, getRevealedMerkleNodes"]}
{"id": "C28", "title": "Merkle tree openings are binding", "statement": "If verification of an opening recomputes the root of an honestly built tree but some provided leaf differs from the committed one, then two different hash inputs with the same digest can be read off the two computations.", "quantifier": "all tree sizes, leaf data, openings", "why_tests_cant": "Adversarial openings; requires a collision-extraction argument.", "anchors": ["/repo/tree.c: computeParentHash, verifyMerkleTree"]}
{"id": "C29", "title": "Opening sizes are bounded by the published formula", "statement": "For every challenge the number of seed-tree nodes and Merkle nodes opened by a Picnic3 signature is at most numOpenedRounds*ceil(log2(ceil(T/numOpenedRounds))), and hiding any one of 16 leaves reveals exactly four nodes.", "quantifier": "all challenge sets", "why_tests_cant": "Worst case over C(T,u) subsets.", "anchors": ["/repo/tree.c: getRevealedNodes, getRevealedMerkleNodes", "/repo/picnic.c: picnic_signature_size"]}
{"id": "C30", "title": "LowMC encryption is a permutation and matches its definition", "statement": "LowMC as computed by the library equals the bit-level definition (key whitening, S-box layer, linear layer, constants, round keys); for every fixed key it is injective on plaintext blocks when the linear-layer matrices are invertible.", "quantifier": "all keys and plaintexts, all LowMC constants", "why_tests_cant": "All 2^n blocks.", "anchors": ["/repo/picnic_impl.c: LowMCEnc, substitution, matrix_mul, xor_array"]}
{"id": "C31", "title": "Results never depend on uninitialised memory", "statement": "The results of picnic_sign and picnic_verify (return code and output bytes) are the same whatever the contents of the uninitialised buffers the library uses and of the unused trailing bytes of key structs.", "quantifier": "all contents of uninitialised memory, all inputs", "why_tests_cant": "A test process sees one memory image.", "anchors": ["/repo/picnic_impl.c: matrix_mul, H3, allocateSignature", "/repo/picnic3_impl.c: tapesToWord", "/repo/picnic.c: picnic_read_public_key"]}
{"id": "C32", "title": "Picnic1 signing is deterministic and domain separated", "statement": "picnic_sign is a deterministic function of secret key, public key, message and parameter set; the seed and salt derivation input is injective in (secret, message, public key) for a fixed parameter set.", "quantifier": "all keys and messages", "why_tests_cant": "Injectivity over all pairs.", "anchors": ["/repo/picnic_impl.c: computeSeeds", "/repo/picnic3_impl.c: computeSaltAndRootSeed"]}
{"id": "C33", "title": "print_signature is memory safe", "statement": "print_signature on any signature that picnic_verify accepts reads only memory belonging to the decoded signature.", "quantifier": "all accepted signatures", "why_tests_cant": "A small heap over-read is silent in tests.", "anchors": ["/repo/picnic.c: print_signature, print_signature2"]}
{"id": "C34", "title": "Parameter names are unique and total", "statement": "picnic_get_param_name returns distinct non-empty names for the twelve valid parameter sets and the string 'Unknown parameter set' for all other values; a parameter set is valid iff get_param_set succeeds for it.", "quantifier": "all enumeration values", "why_tests_cant": "Out-of-range enumeration values are unbounded.", "anchors": ["/repo/picnic.c: picnic_get_param_name, is_valid_params, get_param_set"]}
{"id": "C35", "title": "Sharing between big- and little-endian machines", "statement": "Challenge expansion in Picnic3 computes the same challenge from the same digest on big- and little-endian machines.", "quantifier": "all digests, both byte orders", "why_tests_cant": "Tests run on one byte order.", "anchors": ["/repo/hash.c: toLittleEndian, fromLittleEndian (lines 64-81)", "/repo/picnic3_impl.c: bitsToChunks, expandChallengeHash (line 430)"]}
{"id": "C36", "title": "Bit-array and arithmetic helpers behave as specified", "statement": "numBytes is ceil(n/8), ceil_log2 is the ceiling of the base-2 logarithm for every non-zero 32-bit input, bit reads after bit writes return the last value written and leave all other bits unchanged, parity helpers compute the XOR of all bits, xor_array and xor_three compute the XOR of their inputs, and the padding helpers clear and test exactly the unused bits of the last byte.", "quantifier": "all 32-bit/16-bit words, all buffers, all indices", "why_tests_cant": "Full 32-bit domains and arbitrary buffer lengths.", "anchors": ["/repo/picnic_impl.c: numBytes, getBit, setBit, parity, parity32, xor_array, xor_three, zeroTrailingBits, arePaddingBitsZero", "/repo/picnic3_impl.c: ceil_log2, nlz, parity16, extend"]}
{"id": "C37", "title": "ZKB++ signatures are those of the Picnic specification", "statement": "With a ZKB++ parameter set, picnic_sign returns exactly the bytes of the signature that the Picnic specification defines for the key and the message (seed and salt derivation, random tapes, three-party evaluation of LowMC, commitments, Unruh's G, challenge, encoding); picnic_verify accepts a byte string iff it starts with a signature that is valid according to the specification.", "quantifier": "all keys, all messages, all byte strings, nine parameter sets, all LowMC constants", "why_tests_cant": "Known-answer tests cover a few keys and messages with honest signatures; they say nothing about which forged byte strings are accepted.", "anchors": ["/repo/picnic_impl.c: sign_picnic1, verify, H3, Commit, G, createRandomTape, computeSeeds, mpc_LowMC, mpc_LowMC_verify, prove, verifyProof, serializeSignature, deserializeSignature", "/repo/picnic.c: picnic_sign, picnic_verify"]}
{"id": "C38", "title": "Picnic3 signatures are those of the Picnic specification", "statement": "With a Picnic3 parameter set, picnic_sign returns exactly the bytes of the signature that the Picnic specification defines for the key and the message (salt and seed trees, preprocessing with correction bits, simulated 16-party evaluation of LowMC, commitments, Merkle tree, challenge, opened seeds and encoding); picnic_verify accepts a byte string iff it is a signature that is valid according to the specification.", "quantifier": "all keys, all messages, all byte strings, three parameter sets, all LowMC constants with invertible matrices", "why_tests_cant": "Known-answer tests cover a few keys and messages with honest signatures; they say nothing about which forged byte strings are accepted.", "anchors": ["/repo/picnic3_impl.c: sign_picnic3, verify_picnic3, computeSaltAndRootSeed, createRandomTapes, computeAuxTape, simulateOnline, commit, commit_h, commit_v, HCP, expandChallenge, serializeSignature2, deserializeSignature2", "/repo/tree.c: generateSeeds, revealSeeds, reconstructSeeds, buildMerkleTree, openMerkleTree, verifyMerkleTree", "/repo/picnic.c: picnic_sign, picnic_verify"]}
{"id": "C39", "title": "Picnic3 signatures prove knowledge of the secret key", "statement": "Take three accepted Picnic3 signatures for one public key that start from the same commitments (same salt, Merkle root and commitment digest of some repetition t): two opening t with different unopened parties and one opening the preprocessing of t. Then the secret key can be computed from them: it is the masked key in the first plus the mask opened in the third. The only exception is a collision of SHAKE among the strings hashed for repetition t, which is then exhibited.", "quantifier": "all triples of accepted byte strings, all messages, all public keys, all repetitions, three parameter sets, all LowMC constants with invertible matrices", "why_tests_cant": "Soundness is about every dishonest signer; tests exercise honest signers and a few corrupted signatures.", "anchors": ["/repo/picnic3_impl.c: verify_picnic3, simulateOnline, computeAuxTape, commit, commit_h, commit_v", "/repo/tree.c: buildMerkleTree, addMerkleNodes, verifyMerkleTree", "/repo/picnic.c: picnic_verify"]}
{"id": "C40", "title": "Randomness of signatures is separated between parameter sets", "statement": "If one secret key signs the same message under two parameter sets, the seeds and salts of the two signatures are derived from different hash inputs, so that the two signatures together reveal no more than each of them. VIOLATED for parameter sets with the same block length and LowMC instance: Fiat-Shamir and Unruh signatures of one level share all seeds and the salt, and any repetition with different challenges yields the secret key; the published salt of a Picnic3 signature starts with the seed of the first party of repetition 0 of the signature under the corresponding 'full' parameter set, and with challenge 1 in that repetition the two signatures yield the secret key.", "quantifier": "all keys, all messages, all pairs of parameter sets", "why_tests_cant": "The seeds are internal and each signature verifies; tests compare every parameter set with its own known answers only.", "anchors": ["/repo/picnic_impl.c: computeSeeds, createRandomTape, sign_picnic1", "/repo/picnic3_impl.c: computeSaltAndRootSeed", "/repo/picnic.c: picnic_sign"]}
{"id": "C41", "title": "Aux bits, masked key and messages of an opened Picnic3 repetition reveal nothing about the key (the commitment is not considered: see C58)", "statement": "Consider a repetition opened by a Picnic3 signature with party k unopened. If the random tape of party k is uniformly random, the aux bits, the masked key and the messages of all parties that are published have exactly the same probability distribution for any two secret keys with the same public key, whatever the tapes of the other parties are. They are exactly the data that the verifier's simulation accepts, and every accepted data set corresponds to exactly one assignment of the used bits of the hidden tape, for every secret key of that public key. What sign puts into a signature is the result of this computation on the tapes derived from the seeds. The same holds for all opened repetitions together, with independent tapes of the unopened parties, and the distribution is uniform on the data that the verifier accepts.", "quantifier": "all keys, all tapes of the opened parties, all unopened parties, all repetitions, all published data, three parameter sets, all LowMC constants with invertible matrices", "why_tests_cant": "Privacy is equality of distributions over all tapes; single signatures give no information about it, and a biased mask still verifies.", "anchors": ["/repo/picnic3_impl.c: sign_picnic3, verify_picnic3, simulateOnline, computeAuxTape, getAuxBits, setAuxBits"]}
{"id": "C42", "title": "Heap memory is used while allocated and released exactly once", "statement": "If no allocation fails, picnic_sign, picnic_verify and print_signature access heap blocks only between their allocation and release, never release a block twice or through an uninitialised pointer, and have released everything they allocated when they return, on every path (signature or signature buffer invalid, too small, key pair inconsistent). VIOLATED by picnic_sign for ZKB++ parameter sets with an inconsistent key pair (all working buffers, including seeds, tapes and views, are lost) and by print_signature for strings that are not signatures.", "quantifier": "all parameter sets, all outcomes of all data-dependent branches, all states of the heap", "why_tests_cant": "Leaks and double releases on error paths have no effect on the result; the error paths of verification depend on crafted signatures that tests do not contain.", "anchors": ["/repo/picnic_types.c", "/repo/tree.c", "/repo/picnic_impl.c: verify, sign_picnic1, H3", "/repo/picnic3_impl.c: verify_picnic3, sign_picnic3, deserializeSignature2, getMissingLeavesList, expandChallengeHash", "/repo/picnic.c: picnic_sign, picnic_verify, print_signature, print_signature2"]}
{"id": "C43", "title": "A failing allocation is reported", "statement": "If memory is exhausted, picnic_sign and picnic_verify return an error. VIOLATED: if the first allocation fails, both access the signature object through the NULL pointer before they test it. The results of the other allocations are not tested at all: whatever allocations fail, the functions never return an error for that reason.", "quantifier": "all parameter sets, all states of the heap", "why_tests_cant": "Allocations do not fail in tests.", "anchors": ["/repo/picnic.c: picnic_sign, picnic_verify", "/repo/picnic_types.c: allocateSignature, allocateSignature2"]}
{"id": "C44", "title": "The number of repetitions gives the claimed security level", "statement": "Fix the first message of a forger (salt, output shares and commitments; for Picnic3 the digests of the commitments and the root of the Merkle tree) and the set L of strings hashed so far. If no two strings in L have the same digest and L does not contain the data from which a secret key for the public key can be computed, then the forger can complete the signature with strings from L for at most a fraction 2^-k of all challenges, where k = 128, 192, 256 is the security level of the parameter set: at most 2^T of 3^T challenges for ZKB++, at most max_b binomial(T-b,u-b) 16^b of binomial(T,u) 16^u challenges for Picnic3. The challenge of every signature that verify accepts is a challenge of this kind, determined by the digest of its first message.", "quantifier": "all public keys, all first messages, all sets of hashed strings, all hash functions of the SHAKE construction, all LowMC constants, all twelve parameter sets", "why_tests_cant": "It bounds what every forger can do; tests only exercise honest signatures. A wrong number of repetitions, a check that is left out in verification or a field missing from a commitment changes no test result.", "anchors": ["/repo/picnic.c: get_param_set", "/repo/picnic_impl.c: verify, verifyProof, Commit, H3", "/repo/picnic3_impl.c: verify_picnic3, commit, commit_h, commit_v, HCP", "/repo/tree.c: verifyMerkleTree"]}
{"id": "C45", "title": "Branches and memory addresses of the operations on secret keys reveal nothing but public values", "statement": "Let an observer see the outcome of every branch, the bounds of every loop, the index of every array element read or written and offset and length of every copied or compared block, in order. What the observer sees of a successful picnic_sign is a function of public values only: LowMC constants, parameter set, lengths of message and buffer, and the chain of digests from which the challenge is derived, whose first element is contained in the signature (Picnic3) or is computed by everyone who verifies it (ZKB++). The function is the same for all keys, messages and hash functions, and is not given key, seeds, tapes or views. What is seen of picnic_keygen and picnic_write_private_key is the same for all secrets; of picnic_read_private_key the same for all well-formed encodings with the same parameter byte; of picnic_validate_keypair it depends on the result only; of the Keccak permutation it is the same for all states.", "quantifier": "all keys, messages, random bytes, contents of uninitialised memory, hash functions of the SHAKE construction, LowMC constants, all twelve parameter sets", "why_tests_cant": "It compares all pairs of runs. A test sees results, not addresses; a table lookup indexed by a secret or an early exit changes no result.", "anchors": ["/repo/picnic.c: picnic_sign, picnic_keygen, picnic_write_private_key, picnic_read_private_key, picnic_validate_keypair", "/repo/picnic_impl.c: sign_picnic1, mpc_LowMC, substitution, matrix_mul, H3", "/repo/picnic3_impl.c: sign_picnic3, mpc_sbox, aux_mpc_sbox, expandChallengeHash", "/repo/tree.c: generateSeeds, revealSeeds, openMerkleTree", "/repo/sha3/KeccakP-1600-reference.c"]}
{"id": "C46", "title": "Words are only accessed at addresses that are multiples of four", "statement": "The library views its byte buffers as arrays of 32-bit words and places tables of pointers behind other data. Every word access of key generation, signing, verification and key validation is at an address divisible by 4 and every access to a table of pointers at an address divisible by 8, provided that malloc and calloc return suitably aligned memory, key structures are aligned to 4 (they start with an enumeration) and arrays of words are aligned to 4. Nothing is assumed about arrays of bytes.", "quantifier": "all twelve parameter sets, all placements of the objects of the program in memory, all outcomes of the challenge", "why_tests_cant": "Misaligned accesses are undefined behaviour, but succeed on most machines; they show on a machine that traps, with a compiler that vectorises, or for an unlucky position on the stack.", "anchors": ["/repo/picnic_impl.c: verify, sign_picnic1, matrix_mul, xor_array, allocateCommitments", "/repo/picnic3_impl.c: simulateOnline, computeAuxTape", "/repo/picnic_types.c: allocateMsgs, allocateSeeds", "/repo/picnic.c: picnic_keygen, picnic_validate_keypair"]}
{"id": "C47", "title": "The life cycle of a key pair succeeds from beginning to end", "statement": "The sequence of calls of the example program - generate a key pair, sign, verify, write and read back the public key, verify again with it, write and read back the private key, validate the pair - succeeds at every step, for every message; the only alternative is that the challenge is never sampled and signing does not end. If the random source fails, the first step reports it and nothing else is done.", "quantifier": "all twelve parameter sets, all random bytes, all messages (below 2^32 - 200 bytes), all contents of uninitialised memory at every step, all LowMC constants of the right shape, all hash functions of the SHAKE construction", "why_tests_cant": "The example program is run once per parameter set with fresh random bytes; a defect that needs a particular key, message or content of the stack at a later step is not found.", "anchors": ["/repo/example.c: picnicExample", "/repo/picnic.h"]}
{"id": "C48", "title": "The default random source reports failures and releases what it opens", "statement": "random_bytes_default returns 0 exactly if the operating system delivered all bytes requested, and the buffer then holds these bytes; it writes nothing beyond the requested length. After every call, successful or not, no more files are open than before. Key generation with this source yields the key of the bytes delivered, and reports an error if they were not delivered.", "quantifier": "all lengths, all buffers, all answers of the operating system to any sequence of calls", "why_tests_cant": "/dev/urandom does not fail in tests.", "anchors": ["/repo/picnic_impl.c: random_bytes_default (Linux, Windows), random_bytes_supercop", "/repo/picnic.h: picnic_random_bytes", "/repo/picnic.c: picnic_keygen"]}
{"id": "C49", "title": "The SHA-3 library computes the functions of FIPS 202 in general", "statement": "For every rate that is a positive multiple of 8 bits and adds up to 1600 with the capacity, and every non-zero suffix byte, the incremental hash interface (initialise, any updates with whole bytes, a last update with any number of bits, final, any squeezes) and the one-shot sponge function succeed, stay in bounds and deliver the sponge output of FIPS 202 for the message bits followed by the suffix bits; in particular SHA3-224/256/384/512 and SHAKE128/256. Other arguments, updates after the final call, a second final call and squeezes of broken bytes are reported as failures and change nothing. The permutation computes Keccak-p[1600, nr] for every number of rounds up to 24 on machines of either byte order, and the code that computes its tables yields the static tables.", "quantifier": "all rates, capacities, suffixes, output lengths, messages of any number of bits in any pieces (each piece below 4 GB), any sequence of output requests, all 200-byte states, all round counts up to 24", "why_tests_cant": "The test vectors of FIPS 202 fix a handful of messages, rates and chunkings, and run on one byte order.", "anchors": ["/repo/sha3/KeccakHash.c: Keccak_HashInitialize, Keccak_HashUpdate, Keccak_HashFinal, Keccak_HashSqueeze", "/repo/sha3/KeccakSponge.inc: Sponge", "/repo/sha3/KeccakP-1600-reference.c: KeccakP1600_Permute_Nrounds, fromBytesToWords, fromWordsToBytes, KeccakP1600_InitializeRoundConstants, KeccakP1600_InitializeRhoOffsets", "/repo/sha3/KeccakHash.h: Keccak_HashInitialize_SHA3_256"]}
{"id": "C50", "title": "An accepted signature cannot be altered as long as its challenge stays the same", "statement": "If verification accepts two signatures that begin with the same challenge, for the same parameter set but possibly for different messages and public keys, then the two signatures are the same byte string (with ZKB++: up to the bytes after the last one that is read), the messages are the same and the public keys are the same, unless the strings hashed in the two verifications contain a collision: two different strings, hashed at the same place, with the same digest. So nobody who cannot find collisions can change seeds, broadcasts, commitments, salt or tree nodes of a signature, or move it to another message or key, without a new challenge.", "quantifier": "all parameter sets, public keys, messages, pairs of signature byte strings, hash permutations and LowMC constants", "why_tests_cant": "Tests flip single bits of a few signatures; the claim is about all ways to change a signature, and about which strings enter a hash and whether they can be parsed in only one way.", "anchors": ["/repo/picnic.h: picnic_verify", "/repo/picnic_impl.c: verify, H3, Commit, G", "/repo/picnic3_impl.c: verify_picnic3, HCP, commit, commit_h, commit_v", "/repo/tree.c: verifyMerkleTree, reconstructSeeds"]}
{"id": "C51", "title": "Trying q times forges with probability at most q times 2 to the minus security level", "statement": "Let a forger without the secret key prepare first messages (commitments, output shares; with Picnic3 the root of the Merkle tree and digests of commitments) and ask for the challenge of each, choosing every first message and the strings it hashes after seeing the earlier challenges. If challenges are uniformly random, then the proportion of the sequences of q challenges for which it ends up with an opening that verification accepts, without having hashed two strings with the same digest, without having hashed a preimage of a digest that was fixed before, and without strings that reveal a secret key for the public key, is at most q / 2^k, where k is 128, 192 or 256 according to the parameter set. Every byte string that picnic_verify accepts is such an opening.", "quantifier": "all parameter sets, numbers q, adaptive forgers, public keys, hash permutations and LowMC constants; all sequences of challenges", "why_tests_cant": "A statement about all strategies of an adversary and about probabilities near 2^-128.", "anchors": ["/repo/picnic.h: picnic_verify", "/repo/picnic_impl.c: verify, H3", "/repo/picnic3_impl.c: verify_picnic3, HCP"]}
{"id": "C52", "title": "Random digests give uniformly random challenges", "statement": "Read a challenge off a sequence of digests the way the library does (two bits at a time, skipping the value 3, for ZKB++; for Picnic3 numbers of 8, 9 or 10 bits that are below the number of repetitions and different from the earlier ones, and then, from the following digests, numbers of 4 bits). If the digests are uniformly random and independent, then all challenges are equally likely: for any two challenges, the number of sequences of digests (of any fixed length) that give the one equals the number that give the other. No repetition and no party is favoured, and the bound of C51 on forgers holds when the answers are random digests.", "quantifier": "all parameter sets, numbers and lengths of digests, pairs of challenges", "why_tests_cant": "A statement about the exact distribution over more than 2^256 digests; a bias of the rejection sampling would not be visible in a feasible number of samples.", "anchors": ["/repo/picnic_impl.c: H3", "/repo/picnic3_impl.c: expandChallengeHash, HCP, bitsToChunks"]}
{"id": "C53", "title": "The search for a challenge ends, except with negligible probability", "statement": "The loops that read challenges off digests have no bound, and there are sequences of digests for which they would never end (C38). For random digests this is negligible: of the sequences of T M digests of k bytes, at most a proportion T / 2^(8kM) does not determine a ZKB++ challenge, and of the sequences of (u+1) M digests at most a proportion (u+1) / 2^(54M) does not determine a Picnic3 challenge. Together with C52, every challenge has a probability between (1 - that proportion) / (number of challenges) and 1 / (number of challenges).", "quantifier": "all parameter sets, all M", "why_tests_cant": "Events with probability below 2^-50 do not occur in tests, and the loops have no bound that a test could reach.", "anchors": ["/repo/picnic_impl.c: H3", "/repo/picnic3_impl.c: expandChallengeHash, HCP"]}
{"id": "C54", "title": "Generated keys are uniformly distributed", "statement": "If the random source delivers uniformly random bytes, picnic_keygen chooses secret key and plaintext uniformly and independently among all n-bit values (n = 128 or 129, 192, 255 or 256 according to the parameter set): every pair comes from the same number of random strings, no value is excluded or favoured by the clearing of padding bits. If the LowMC matrices are invertible, secret key and ciphertext are uniform and independent as well, so neither half of a public key alone tells anything about the secret key.", "quantifier": "all parameter sets, LowMC constants, pairs of secret key and plaintext (ciphertext), prior contents of the key structures", "why_tests_cant": "A statement about the exact distribution over 2^256 and more random strings.", "anchors": ["/repo/picnic.c: picnic_keygen", "/repo/picnic_impl.c: zeroTrailingBits, LowMCEnc"]}
{"id": "C55", "title": "A damaged stored key never yields a signature that does not verify", "statement": "picnic_read_private_key checks the format of a stored key, not whether its three parts belong together. Whatever byte string it accepts: if picnic_validate_keypair rejects the key, then picnic_sign returns -1 for all messages and writes neither to the signature buffer nor to the length; and if picnic_sign returns 0, then picnic_validate_keypair accepts the key and picnic_verify accepts the signature with the public key stored in it. (Signing with a damaged secret would otherwise give away signatures of a wrong statement, as in fault attacks.)", "quantifier": "all byte strings that are read as private keys, all parameter sets, messages, signature buffers, hash permutations and LowMC constants with inverse matrices", "why_tests_cant": "There are 2^384 and more byte strings that are accepted as keys; a test can only try a few corruptions.", "anchors": ["/repo/picnic.h: picnic_read_private_key, picnic_sign, picnic_validate_keypair, picnic_verify", "/repo/picnic_impl.c: sign_picnic1", "/repo/picnic3_impl.c: sign_picnic3, simulateOnline"]}
{"id": "C56", "title": "The test vector program shows each value under its name and finishes", "statement": "For every valid parameter set, create_test_vectors prints the private key, the public key, the plaintext block under pk_p, the ciphertext block under pk_C, the message, a signature that verifies and the parts of that signature, and returns without undefined behaviour.", "quantifier": "for all parameter sets, all random bytes used for the key pair and all contents of uninitialised memory", "why_tests_cant": "The program has no reference output to compare with (the keys are random), a swapped label is invisible unless the values are recomputed, and a short over-read of a heap buffer usually goes unnoticed.", "anchors": ["create_test_vectors.c:23-106", "picnic.c:624-783"]}
{"id": "C57", "title": "Signing leaves no secret key in the memory it gives back", "statement": "When picnic_sign has returned 0, the memory that it has given back to the allocator (and that a later, unrelated allocation of the process may receive unchanged) does not contain data from which the secret key can be computed.", "quantifier": "for all parameter sets, secret keys, messages, hash permutations and LowMC constants, and all contents of uninitialised memory", "why_tests_cant": "A test cannot look at released memory without undefined behaviour, and a memory checker does not know which of the released bytes determine the key; the shares of the key are individually indistinguishable from random bytes.", "anchors": ["/repo/picnic.h: picnic_sign", "/repo/picnic_impl.c:955-978", "/repo/picnic3_impl.c:874-890", "/repo/picnic_types.c:20-200"]}
{"id": "C58", "title": "A Picnic3 signature does not reveal the secret key", "statement": "The secret key cannot be computed by a simple deterministic procedure from one signature: what picnic_sign publishes (for Picnic3: masked key, aux bits, messages, opened seeds, and the commitment of the unopened party) does not determine the mask of the key.", "quantifier": "for all secret keys, messages, hash permutations, LowMC constants with invertible matrices, and all successful signatures with the three Picnic3 parameter sets", "why_tests_cant": "Signatures that leak the key verify like any others and agree with the official test vectors; whether published bytes determine the key is a statement about all programs that read them.", "anchors": ["/repo/picnic.h: picnic_sign", "/repo/picnic3_impl.c:73-88 (createRandomTapes), 213-228 (commit), sign_picnic3", "/repo/spec/spec-v3.0.pdf section 7"]}
{"id": "C59", "title": "Strings hashed for different purposes are different and determine the data", "statement": "Whatever signing and verification hash (tapes, commitments, values of G, tree nodes, messages, challenges, chain of digests), the byte string that enters SHAKE determines for which purpose it is hashed and all the data: repetition, party, salt, seeds, views, public key, message. So values for different purposes are outputs for different inputs.", "quantifier": "all twelve parameter sets, all data of the lengths that occur, all messages; the derivation of the seeds from the secret key is compared with itself only", "why_tests_cant": "Two uses with a common input, or two data sets with a common encoding, do not affect any round trip test; the statement is about all pairs of inputs.", "anchors": ["/repo/picnic_impl.c: createRandomTape, Commit, G, H3, computeSeeds", "/repo/picnic3_impl.c: createRandomTapes, commit, commit_h, commit_v, HCP", "/repo/tree.c: hashSeed, computeParentHash", "/repo/hash.h: HASH_PREFIX_*"]}
{"id": "C60", "title": "The project's own test programs are defined and pass", "statement": "Run with a correct library, the test functions of unit_test.c and tree_test.c read only inside their arrays and succeed: the seed tree and Merkle tree tests for every list of hidden leaves that their random source can produce, the LowMC tests exactly if the expected ciphertext is that of LowMC, the serialisation tests for all keys and signatures, and the test against expected signatures exactly if the signature has the expected length, challenge and salt.", "quantifier": "for all outputs of the random sources, all parameter sets a test is called with, all contents of uninitialised memory", "why_tests_cant": "A test program cannot test itself: an over-read of a few stack bytes usually goes unnoticed, and a wrong bound fails only for rare random choices.", "anchors": ["/repo/tree_test.c: runSeedTest, runMerkleTest", "/repo/unit_test.c: runLowMCTestVectors, test_serialization_L1, test_serialize_roundtrip_picnic3, test_sig_serialize_picnic3, do_test_sign", "/repo/picnic.c:354"]}
{"id": "C61", "title": "The known-answer test accepts exactly the vectors of the library", "statement": "The known-answer test program reads every vector of a file in its text format, and its result is success exactly if every file has a vector and every vector is what the library computes: keys that belong together, the signature that signing produces from the secret key and the message, and a copy of the message with its length before the signature.  A damaged or truncated file is reported as a failure, and no file makes the program access memory outside its arrays.", "quantifier": "for all files, all parameter sets, all keys, messages and signatures, all contents of uninitialised memory", "why_tests_cant": "The program is the test; its few shipped files all contain correct vectors whose signatures happen to have a suitable length, so neither a refused correct vector nor an accepted damaged file occurs.", "anchors": ["/repo/kats_test.c: parse_hex, read_test_vector, run_picnic_test, run_test_vectors_from_file, main", "/repo/picnic.c: picnic_sign, picnic_signature_size"]}
{"id": "C62", "title": "A signature tells nothing about the secret key that the public key does not", "statement": "With a random oracle in place of SHAKE, a whole ZKB++ signature together with the oracle can be produced, up to a distance of 2 (3T)^2 / 2^(8 seed length), by a simulator that is given the public key and the message but not the secret key: whoever does not ask the oracle for a string that contains the secret key or a value computed from the seed of an unopened party cannot tell the two apart, however it computes.  A procedure that asks at most Q questions distinguishes the two with a probability of at most (3 (3T)^2 + 4TQ) / 2^(8 seed length) plus the probability that it finds the secret key when it is given the simulated signature.  For the signatures of k different messages the bound is k (4TQ + 400 k T^2) / 2^(8 seed length).  If the k messages are chosen by whoever receives the signatures, one after the other and depending on everything learned before, it is 32 k T (Q + k (18T + 3)) / 2^(8 seed length).  With SHAKE in place of the oracle the signer of this statement makes exactly the signature of picnic_sign.", "quantifier": "for all ZKB++ parameter sets, all keys, all messages, all oracles and all sets of observations", "why_tests_cant": "It compares two probability distributions over all oracles; a test sees single signatures, and a leak of key bits through a view, a commitment or a reused tape does not change whether they verify.", "anchors": ["/repo/picnic_impl.c: sign_picnic1, Commit, prove, computeSeeds, createRandomTape, G, H3", "/repo/picnic.c: picnic_sign"]}
{"id": "C63", "title": "Whoever makes a valid signature knows a secret key", "statement": "With a random oracle in place of SHAKE, a procedure that knows only a public key, asks the oracle at most Q questions and then produces a message and a valid ZKB++ signature has, except with probability R (2/3)^T + (R^2 (4T+3) + R (T+1)^2) / 2^(8 digest length) where R = Q + 12T + 1, asked for (or opened) the commitments to three views whose key shares add up to a key that fits the public key.  So a secret key can be read off the list of its questions by trying at most (Q+2T)^3 sums, without rewinding.  The bound is at most R / 2^(4 digest length - 1), that is R / 2^127, R / 2^191, R / 2^255 for the three security levels.  With SHAKE in place of the oracle, the valid signatures of this statement are exactly those that picnic_verify accepts.  The same holds for a procedure that is also given the signatures of k different messages, fixed beforehand or chosen by the procedure one after the other, and must sign another message: its probability of success is at most the probability that a secret key is found, in the same way, when the signatures are made by a simulator that does not know the secret key, plus a bound that also counts k.", "quantifier": "for all ZKB++ parameter sets, all public keys, all adaptive procedures with a bounded number of questions, all message lengths", "why_tests_cant": "It bounds the probability of success of every possible forger; tests try a few damaged signatures, and a verifier that omits one comparison or derives the challenge from too little still accepts every honest signature and refuses most damaged ones.", "anchors": ["/repo/picnic_impl.c: verify, verifyProof, H3, Commit, G, createRandomTape, deserializeSignature", "/repo/picnic.c: picnic_verify"]}
{"id": "C64", "title": "Whoever makes a valid Picnic3 signature knows a secret key", "statement": "With a random oracle in place of SHAKE, a procedure that knows only a public key, asks the oracle at most R questions and then produces a message and a valid Picnic3 signature has asked for the strings of the preprocessing of one repetition (the commitments of all 16 parties, correctly prepared) and for a masked key which together give a key that fits the public key, except with probability R (2^-K + (u+1)/2^(54m)) + (1 + R^2 (T+4) + R (T+3) (18T + 2^depth) + R (((u+1)m)^2 + (u+1) m R)) / 2^(8 digest length) for every m > 0, where K = 128, 192, 256 is the security level.  So a secret key can be read off the list of its questions by trying at most R^2 candidates, without rewinding.  For R up to 2^(K-12) the bound is at most R / 2^(K-1).  With SHAKE in place of the oracle, the valid signatures of this statement are exactly those that picnic_verify accepts.", "quantifier": "for all Picnic3 parameter sets, all public keys, all adaptive procedures with a bounded number of questions, all message lengths", "why_tests_cant": "It bounds the probability of success of every possible forger; tests try a few damaged signatures, and a verifier that omits a comparison (a commitment, a node of the Merkle tree, a seed, the padding of the correction bits) or derives the challenge from too little still accepts every honest signature and refuses most damaged ones.", "anchors": ["/repo/picnic3_impl.c: verify_picnic3, HCP, commit, commit_h, commit_v, simulateOnline, deserializeSignature2", "/repo/tree.c: reconstructSeeds, addMerkleNodes, verifyMerkleTree, buildMerkleTree", "/repo/picnic.c: picnic_verify"]}
{"id": "C65", "title": "A signature cannot be turned into another one", "statement": "With a random oracle in place of SHAKE, a procedure that has k different messages of its choice signed with ZKB++, one after the other, and then produces a message and a valid signature that it was not given for this message (even if the message is one of those that were signed), succeeds with at most the probability that a secret key is found in its questions when the signatures are made by a simulator that does not know the secret key, plus the bound of C63: k 32T (Q' + k(18T+3)) / 2^(8 seed length) + R (2/3)^T + (R^2 (4T+3) + R (T+1)^2 + R V + V^2) / 2^(8 digest length).  For picnic_verify this means: an accepted byte string begins with a signature that was made, or is a forgery; bytes after the end of a signature are ignored.", "quantifier": "for all ZKB++ parameter sets, all key pairs, all adaptive procedures with a bounded number of questions and signatures, all message lengths", "why_tests_cant": "It bounds the probability that any procedure changes a signature (re-encoding, other padding bits, other opened views, other salt or challenge) so that it stays valid; tests flip a few bits of a few signatures.", "anchors": ["/repo/picnic_impl.c: verify, verifyProof, H3, Commit, G, createRandomTape, deserializeSignature", "/repo/picnic.c: picnic_sign, picnic_verify"]}
{"id": "C66", "title": "Sizes, indices and counters never overflow", "statement": "With each of the twelve parameter sets, every integer the library computes for its own use (buffer and allocation sizes, array indices, loop counters including their last increment, signature and key lengths, tree sizes and node numbers, chunk values, and the 16-bit repetition, party, node and length tags that are hashed) is the mathematically intended number: no unsigned value wraps around, no signed value overflows, no shift is out of range, no division is by zero, and no conversion between the C integer types in use (uint8_t, uint16_t, int, uint32_t, size_t, ptrdiff_t) changes the value.", "quantifier": "for all parameter sets, all functions reached with them, all values of counters and lengths within their ranges (messages shorter than 2^61 bytes)", "why_tests_cant": "A counter or tag that is one bit too narrow shows only for the largest parameter set or the last repetition, as repeated hash inputs or an endless loop; a size that wraps shows as memory corruption or not at all.  It depends on the conversions C inserts between mixed types.", "anchors": ["/repo/picnic_impl.c", "/repo/picnic3_impl.c", "/repo/tree.c", "/repo/picnic_types.c", "/repo/picnic.c: get_param_set, picnic_signature_size, picnic_write_*_key, picnic_read_*_key", "/repo/hash.c: HashUpdate, HashSqueeze, HashUpdateIntLE"]}
{"id": "C67", "title": "Forging is as hard as finding the secret key", "statement": "For keys made by picnic_keygen from random bytes, and with the hash function replaced by a random oracle: from any procedure that is given the public key (and, for the ZKB++ parameter sets, signatures on messages of its choice) and makes a new signature that verification accepts, one obtains by an explicit construction that uses only the public key a guess at the secret key which picnic_validate_keypair accepts. The probability of forging is at most an explicit polynomial number times the probability that this guess is right, plus an explicit term that is at most 2^-21 for 2^30 signatures and 2^60 hash evaluations.", "quantifier": "for all parameter sets, all procedures with a bounded number of questions and signatures, averaged over all random bytes of key generation and all oracles", "why_tests_cant": "It quantifies over all attackers, and bounds an average over all keys and all hash functions.", "anchors": ["/repo/picnic.c: picnic_keygen, picnic_validate_keypair", "/repo/picnic_impl.c: sign_picnic1, verify_picnic1", "/repo/picnic3_impl.c: verify_picnic3"]}
{"id": "C68", "title": "The work of a verification is bounded, whatever the signature is", "statement": "For every public key, message and signature, with any bytes and any declared signature length (also gigabytes of junk), picnic_verify ends within a number of elementary steps and of calls of the Keccak permutation that is given by the parameter set, the length of the message and the number of times the challenge hash has to be hashed again: at most A + 15 m + B r steps and C + m/rate + D r permutations for explicit A, B, C, D. It does not depend on the signature and its length; nobody can make a verifier work longer by the choice of a signature. In particular no set takes more than 1.25 10^9 steps and 130000 permutations for a million bytes of message and ten rehashes.", "quantifier": "for all parameter sets (and invalid identifiers), public keys, messages, signature bytes and lengths, also inconsistent ones", "why_tests_cant": "Running times of test signatures say nothing about the worst signature an attacker can construct; loops over lists and trees depend on values read from the signature.", "anchors": ["/repo/picnic.c: picnic_verify", "/repo/picnic_impl.c: verify, verifyProof, H3, deserializeSignature", "/repo/picnic3_impl.c: verify_picnic3, deserializeSignature2, expandChallengeHash", "/repo/tree.c", "/repo/hash.c", "/repo/sha3/KeccakSpongeWidth1600.c"]}
{"id": "C69", "title": "What a failed key generation leaves behind cannot be used", "statement": "When picnic_keygen is refused because the parameter identifier is invalid or a pointer is NULL, it returns -1 and no byte of the key objects has changed. When the random source fails (the first or the second time), it returns -1 for every parameter set; nothing of the old contents of the two objects survives: the public key and the copy inside the secret key are zero except for the parameter identifier, and the secret is zero or the n bits drawn first. If LowMC under that secret does not map the zero block to the zero block (the case except with probability 2^-n for a cipher that looks random), picnic_validate_keypair refuses the two objects and picnic_sign with that secret key returns -1 and leaves the signature buffer and length as they were.", "quantifier": "for all parameter identifiers, earlier contents of the key objects, random sources that fail at either request, messages and buffers", "why_tests_cant": "Random sources do not fail in tests; and a test would show one combination of set, old contents and moment of failure.", "anchors": ["/repo/picnic.c: picnic_keygen, lines 202-254", "/repo/picnic.c: picnic_validate_keypair, picnic_sign"]}
{"id": "C70", "title": "The work of signing and of handling keys is bounded", "statement": "picnic_sign ends within a number of elementary steps and of calls of the Keccak permutation that is given by the parameter set, the length of the message and the number of times the challenge hash has to be hashed again, whatever the secret key (also a damaged or inconsistent one), the message, the buffer and its declared length are: at most A + 30 m + B r steps and C + 2m/rate + D r permutations for explicit A, B, C, D. picnic_keygen and picnic_validate_keypair take at most 1.4 10^6 steps and never hash (calls of the random source not counted). No set takes more than 1.87 10^9 steps and 136000 permutations to sign a million bytes with ten rehashes.", "quantifier": "for all parameter sets (and invalid identifiers), secret keys, messages, lengths, signature buffers, random sources", "why_tests_cant": "Measured times are those of some keys and messages; the number of nodes revealed, list lengths and early exits depend on the challenge and on the key.", "anchors": ["/repo/picnic.c: picnic_sign, picnic_keygen, picnic_validate_keypair", "/repo/picnic_impl.c: sign_picnic1, serializeSignature, LowMCEnc", "/repo/picnic3_impl.c: sign_picnic3, serializeSignature2", "/repo/tree.c", "/repo/hash.c"]}
{"id": "C71", "title": "The memory a call needs is bounded, whatever the signature", "statement": "At no moment do picnic_sign, picnic_verify and the printing functions hold more heap memory than a fixed number of bytes given by the parameter set (between 43 KB for printing and 6.1 MB for verifying picnic3-L5): not for any message, string offered as a signature, key pair (also an inconsistent one), challenge, nor if some allocations fail. In particular the length and the contents of a received signature cannot make verification request more memory.", "quantifier": "for all parameter sets, messages, keys, signatures and strings that are not signatures, all challenges, all patterns of failing allocations, all heaps at the time of the call", "why_tests_cant": "Allocation sizes depend on lengths derived from the challenge in the received string; tests see the challenges of a few signatures.", "anchors": ["/repo/picnic.c: picnic_sign, picnic_verify", "/repo/picnic_types.c", "/repo/tree.c", "/repo/picnic_impl.c: verify, sign_picnic1, H3", "/repo/picnic3_impl.c: verify_picnic3, sign_picnic3, deserializeSignature2, expandChallengeHash"]}
{"id": "C72", "title": "Which arguments may share memory, and which memory a call changes", "statement": "picnic_sign may be called with the signature buffer lying over the message, over the key, or over both: it returns the same result and leaves the same signature as with separate buffers, and the signature verifies for the message that was there before (only the length variable must be apart). picnic_keygen and the functions that read and write keys give, if their objects are apart, the same result as on separate objects. Each call changes no byte of the caller's memory except its outputs: signature and length, key objects, or encoding; a failing picnic_sign changes nothing. For the key functions the condition is needed: picnic_keygen(p, &sk.pk, &sk) and writing or reading a public key in place are undefined, and reading a private key in place fails and erases the encoded key.", "quantifier": "for all contents of memory, all addresses of the arguments, all parameter sets, keys, messages, buffer sizes and random sources", "why_tests_cant": "Tests use separate buffers and compare only the outputs; whether every read of an input precedes the first write over it, and whether any other byte changes, concerns all placements of the arguments.", "anchors": ["/repo/picnic.h: picnic_keygen, picnic_sign, picnic_write_public_key, picnic_read_private_key", "/repo/picnic.c: picnic_keygen, picnic_sign, picnic_write_public_key, picnic_read_public_key, picnic_write_private_key, picnic_read_private_key", "/repo/picnic_impl.c: serializeSignature, LowMCEnc", "/repo/picnic3_impl.c: serializeSignature2"]}
{"id": "C73", "title": "A signature belongs to one parameter set", "statement": "If picnic_verify accepts a byte string for a message with one parameter set, it does not accept it for a message of the same length with another parameter set (also if the keys are otherwise the same, as FS and UR sets allow), unless hash values of different strings coincide: the challenges of two different strings agree (as far as both have values), or two different strings have the same commitment; between ZKB++ and Picnic3 the digest in the Picnic3 signature would have to be the beginning of the challenge computed from another string.", "quantifier": "all pairs of different parameter sets, all keys, messages of the same length, byte strings (also with bytes appended), all LowMC constants", "why_tests_cant": "The parameter set is not part of what is hashed; whether signatures of one set can be valid for another one depends on all signatures that a forger may construct.", "anchors": ["/repo/picnic.c: picnic_verify", "/repo/picnic_impl.c: H3, Commit, verify", "/repo/picnic3_impl.c: HCP, verify_picnic3", "/repo/picnic_impl.c: get_param_set"]}
{"id": "C74", "title": "Signatures have the published sizes", "statement": "Signatures have the sizes that the specification publishes (table 3 of spec-v3.0.pdf): picnic_sign never returns a longer signature than the published maximum; signatures of the UR parameter sets have exactly the published length; and the published average deviates by less than one percent from the average length over uniformly random challenges.", "quantifier": "all parameter sets, keys, messages, buffers, LowMC constants; the averages range over all challenges", "why_tests_cant": "The length of a signature depends on the challenge: there are 3^438 or C(601,68)\u00b716^68 of them, so a sample neither finds the longest signature nor determines the average.", "anchors": ["/repo/spec/spec-v3.0.pdf: table 3", "/repo/picnic_impl.c: serializeSignature", "/repo/picnic3_impl.c: serializeSignature2", "/repo/tree.c: getRevealedNodes, getRevealedMerkleNodes", "/repo/picnic.c: picnic_sign"]}
{"id": "C75", "title": "Values are accessed through their own type", "statement": "Key generation, signing, verification and picnic_validate_keypair access every object through its declared type or byte by byte, and no byte of allocated storage through two different types other than bytes (C11 6.5p7, strict aliasing), so that a compiler that relies on this rule cannot break them.", "quantifier": "all parameter sets, all placements of the objects in memory, all challenges, keys in variables or in allocated storage", "why_tests_cant": "An access through the wrong type is undefined behaviour that has the expected effect with most compilers and options; a test run shows one compilation.", "anchors": ["/repo/picnic.c: picnic_keygen, picnic_sign, picnic_verify, picnic_validate_keypair", "/repo/picnic.h: picnic_publickey_t, picnic_privatekey_t", "/repo/picnic_impl.c: xor_array, matrix_mul, LowMCEnc", "/repo/picnic_types.c: allocateInputs, allocateCommitments, allocateMsgs, allocateSeeds"]}
{"id": "C76", "title": "SHA-3 tables computed at run time are right, also while other threads hash", "statement": "In the variant of the SHA-3 code that computes its tables at every start of a hash (KeccakReference), the permutation computes Keccak-p[1600,24] once a hash has been started, whatever the tables contained before, and starting a hash in one thread never changes the result of a hash in another thread.", "quantifier": "all contents of the tables, all states, all moments at which another thread may be while it computes the tables", "why_tests_cant": "The wrong values exist only for a few instructions; a test with threads almost never hits them.", "anchors": ["/repo/sha3/KeccakP-1600-reference.c: KeccakP1600_StaticInitialize, KeccakP1600_InitializeRoundConstants, KeccakP1600_InitializeRhoOffsets, LFSR86540", "/repo/sha3/KeccakSponge.inc: SpongeInitialize"]}
{"id": "C77", "title": "On 32-bit machines messages of every length are signed and verified as a whole", "statement": "Compiled for a machine whose size_t has 32 bits, picnic_sign and picnic_verify behave as on a 64-bit machine for every message that fits into memory; in particular a signature made on one message is not accepted for a longer message that starts with it.", "quantifier": "all parameter sets, keys, messages, message lengths, signatures, buffers", "why_tests_cant": "The lengths at which the number of bits no longer fits are beyond what tests use, and the results for shorter messages are all right.", "anchors": ["/repo/hash.c:21-29", "/repo/sha3/KeccakHash.h:28", "/repo/picnic_impl.c:398", "/repo/picnic_impl.c:856", "/repo/picnic3_impl.c:545", "/repo/picnic3_impl.c:738", "/repo/VisualStudio/libpicnic.vcxproj (Win32 configurations)"]}
{"id": "C78", "title": "The LowMC constants of the specification have the properties the library relies on", "statement": "With the LowMC constants that the Picnic specification defines for the parameter sets with full S-box layer, the matrices that Picnic3 uses as inverses are the inverses, the tables have the sizes the code reads, LowMC is a permutation for every key, the keys of the project's known-answer tests are valid, the constants are exactly those the specification's generator makes, and therefore Picnic3 signatures verify, without assumptions about the constants.", "quantifier": "all keys, messages, signatures; all environments (Keccak permutation, uninitialised memory); the six parameter sets Picnic3_L1, L3, L5, picnic_L1_full, L3_full, L5_full", "why_tests_cant": "A wrong entry of an inverse matrix changes the result only for some inputs; that signing works for all keys needs the exact inverses.", "anchors": ["/repo/lowmc_constants.h:25-36", "/repo/picnic3_impl.c (computeAuxTape: KMatrixInv, LMatrixInv)", "/repo/kats/kat_picnic3_l1.txt", "/repo/kats/kat_picnic3_l3.txt", "/repo/kats/kat_picnic3_l5.txt"]}
{"id": "C79", "title": "The library as it is needs no assumptions about its environment", "statement": "With the library's own Keccak permutation and the LowMC constants of the specification in all twelve parameter sets, every assumption that the other properties make about hash function and constants holds: keys are generated, written, read, validated, signatures are made and verify, LowMC is a permutation for every key, the keys of the known-answer files of these parameter sets are valid, and the constants are exactly those that the specification's generator makes.", "quantifier": "all parameter sets, keys, messages, random sources, contents of uninitialised memory, bounds of the challenge search", "why_tests_cant": "That the assumptions fit the real constants concerns all of about 14 million table bits and all keys; tests sample single keys.", "anchors": ["/repo/lowmc_constants.h:25-36", "/repo/picnic_impl.c (get_param_set)", "/repo/example.c", "/repo/kats/kat_l1_fs.txt", "/repo/kats/kat_l3_ur.txt", "/repo/kats/kat_l5_fs.txt"]}
{"id": "C80", "title": "The library implements the standard: SHAKE of FIPS 202, LowMC of the generator, Picnic signatures", "statement": "Take the instance of the Picnic specification that is fixed by the numbers of a parameter set, SHAKE128/256 of FIPS 202 and the LowMC instance made by the specification's generator (it exists and is unique as far as blocks are concerned). The signatures that the library computes are exactly the signatures of that instance, and the byte strings the library accepts are exactly the valid ones of that instance (for the ZKB++ parameter sets: exactly the strings that start with a valid one), and the keys the library generates and validates are those of that instance, so keys and signatures are interchangeable with every other implementation of the specification.", "quantifier": "all twelve parameter sets, keys, messages of at most 2^32 - 200 bytes, byte strings, buffers, contents of uninitialised memory; converse directions for every sufficiently large bound of the challenge search", "why_tests_cant": "Known-answer tests compare single signatures; agreement on all messages, keys and malformed strings with an independently fixed standard is a statement about infinitely many inputs and all constants.", "anchors": ["/repo/picnic.c (picnic_sign, picnic_verify)", "/repo/picnic_impl.c (sign_picnic1, verify)", "/repo/picnic3_impl.c (sign_picnic3, verify_picnic3)", "/repo/hash.c", "/repo/sha3/KeccakP-1600-reference.c", "/repo/lowmc_constants.h:25-36"]}
