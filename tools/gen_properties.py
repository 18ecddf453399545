#!/usr/bin/env python3
"""Writes ../properties.jsonl. Plain data; run after editing."""
import json, os
P = []
def p(title, statement, quantifier, why, anchors):
    P.append(dict(id="C%02d" % (len(P) + 1), title=title, statement=statement, quantifier=quantifier,
                  why_tests_cant=why, anchors=anchors))
W = "neocore/IO/BinaryWriter.py:"; R = "neocore/IO/BinaryReader.py:"; U = "neocore/UIntBase.py:"
F = "neocore/Fixed8.py:"; B = "neocore/BigInteger.py:"; H = "neocore/Cryptography/Helper.py:"
C = "neocore/Cryptography/Crypto.py:"; M = "neocore/Cryptography/MerkleTree.py:"; E = "neocore/Cryptography/ECCurve.py:"
K = "neocore/KeyPair.py:"; L = "neocore/bin/cli.py:"

# ---------------- binary IO ----------------
p("Fixed-width integers survive write/read",
  "For each of Int8/UInt8/Int16/UInt16/Int32/UInt32/Int64/UInt64 and each byte order, writing an in-range value and reading it back with the same method and byte order returns exactly that value, consumes exactly the width and leaves whatever follows untouched; an out-of-range value raises and writes nothing.",
  "all integers, all 8 widths/signs, both byte orders, all surrounding stream contents",
  "2^64 values per width times every stream context; tests check one value per method.",
  [W+"BinaryWriter.WriteInt8..WriteUInt64", W+"BinaryWriter.pack", R+"BinaryReader.ReadInt8..ReadUInt64", R+"BinaryReader.unpack"])
p("Fixed-width wire layout",
  "The bytes a fixed-width write appends are exactly the two's complement base-256 digits of the value, least significant first for '<' (the default) and most significant first for '>'; so '<' and '>' outputs are reversals of one another and the number of bytes returned equals the width.",
  "all in-range integers of every width/sign, both byte orders",
  "wire compatibility must hold for every value, tests compare a few literals.",
  [W+"BinaryWriter.WriteInt16", W+"BinaryWriter.WriteUInt64", W+"BinaryWriter.pack"])
p("VarInt round trip",
  "WriteVarInt(v) followed by ReadVarInt(max) returns v and consumes exactly the bytes written, for every v below 2^64 with v <= max.",
  "all v in [0, 2^64), all max, all following bytes",
  "boundaries (0xfc/0xfd, 0xffff/0x10000, 2^32, 2^63) multiply with max; tests use four values.",
  [W+"BinaryWriter.WriteVarInt", R+"BinaryReader.ReadVarInt"])
p("VarInt encoding is shortest-form and prefix-free",
  "WriteVarInt uses 1 byte below 0xfd, 3 up to 0xffff, 5 up to 0xffffffff and 9 above; two different values never have encodings one of which is a prefix of the other.",
  "all pairs of values in [0, 2^64)",
  "quantifies over pairs of values.",
  [W+"BinaryWriter.WriteVarInt"])
p("VarInt rejects what it cannot encode without touching the stream",
  "WriteVarInt of a negative, of a non-integer or of a value of 2^64 or more raises and leaves the stream exactly as it was.",
  "all argument values and all prior stream states",
  "failure atomicity must hold for every bad value and stream state.",
  [W+"BinaryWriter.WriteVarInt"])
p("VarInt accepts integer subclasses",
  "WriteVarInt of any int (including BigInteger and bool, which pass its isinstance check) writes the same bytes as for the plain int of equal value.",
  "all values of all int subclasses",
  "depends on the dynamic type of the argument for each size class; tests only use plain int.",
  [W+"BinaryWriter.WriteVarInt", W+"BinaryWriter.WriteByte"])
p("ReadVarInt never exceeds max",
  "Whatever bytes are on the stream, ReadVarInt(max) with max >= 0 either raises or returns a value between 0 and max; at end of stream it returns 0.",
  "all byte streams, all max",
  "adversarial inputs cannot be enumerated.",
  [R+"BinaryReader.ReadVarInt"])
p("VarBytes round trip",
  "WriteVarBytes(b) then ReadVarBytes(max) returns b and consumes exactly what was written, for every byte string with len(b) <= max.",
  "all byte strings, all max, all following bytes",
  "all lengths and contents.",
  [W+"BinaryWriter.WriteVarBytes", R+"BinaryReader.ReadVarBytes"])
p("VarString round trip",
  "WriteVarString(s) then ReadVarString() returns the UTF-8 encoding of s and consumes exactly what was written; two different strings are never written identically.",
  "all strings (any length, any code points) and byte strings",
  "the hex detour inside the writer must be lossless for every content.",
  [W+"BinaryWriter.WriteVarString", R+"BinaryReader.ReadVarString"])
p("FixedString occupies exactly its declared length and reads back",
  "WriteFixedString(s, n) writes exactly n bytes or raises (iff the UTF-8 length exceeds n, writing nothing), and ReadFixedString(n) returns the UTF-8 of s when s does not end in NUL.",
  "all strings, all n, all surrounding bytes",
  "includes strings that happen to look like hex; the field width must hold for all of them.",
  [W+"BinaryWriter.WriteFixedString", R+"BinaryReader.ReadFixedString"])
p("WriteBytes writes the bytes it is given",
  "WriteBytes(b) appends exactly b and returns len(b).",
  "all byte strings b",
  "default unhex=True makes the result depend on the content of b.",
  [W+"BinaryWriter.WriteBytes"])
p("UInt160/UInt256 survive serialization",
  "Serialize then Deserialize (or WriteUInt160/256 then ReadUInt160/256) yields an equal object and consumes exactly 20/32 bytes.",
  "all 2^160 / 2^256 values, all following bytes",
  "fails only on values whose raw bytes are all ASCII hex digits - a random test never hits one.",
  [U+"UIntBase.Serialize", U+"UIntBase.Deserialize", W+"BinaryWriter.WriteUInt160", R+"BinaryReader.ReadUInt160", R+"BinaryReader.ReadUInt256"])
p("Reading is safe on every stream and history",
  "No sequence of reader calls, on any stream and with any outcomes (including exceptions), changes the stream's bytes, moves the position backwards, moves it beyond the end, or returns bytes that are not the bytes between the old and new position.",
  "all byte streams, all finite sequences of reader operations",
  "unbounded operation histories over adversarial data.",
  [R+"BinaryReader"])
p("Writing is append-only on every history",
  "On a stream positioned at its end, every sequence of writer calls (including failing ones) only appends: the earlier bytes are never altered and the position stays at the end.",
  "all initial contents, all finite sequences of writer operations",
  "unbounded operation histories.",
  [W+"BinaryWriter"])
p("Mixed records are self-delimiting",
  "For every sequence of typed fields written one after another, reading with the same sequence of methods returns the same values and ends exactly where the writing ended.",
  "all finite sequences of typed fields (all integer widths, varint, varbytes, varstring, bool, char, double, uint160/256, Fixed8, hash lists)",
  "all record shapes and values.",
  [W+"BinaryWriter", R+"BinaryReader"])
p("Serializable arrays",
  "WriteSerializableArray(xs) then ReadSerializableArray returns equal items in order whenever each item's Deserialize inverts its Serialize; on any stream it never raises for a malformed item but returns the items read before the first failure, at most max of them.",
  "all element types with an inverse pair, all lists, all malformed streams",
  "generic in the element type and list; error swallowing must hold at every failure point.",
  [W+"BinaryWriter.WriteSerializableArray", R+"BinaryReader.ReadSerializableArray"])
p("Hash lists round trip",
  "WriteHashes(hs) then ReadHashes() returns the same list of 64-digit hex strings.",
  "all lists of 32-byte hashes in hex",
  "all list lengths and contents, including contents that look like hex text.",
  [W+"BinaryWriter.WriteHashes", R+"BinaryReader.ReadHashes"])
p("2000-hash lists round trip",
  "Write2000256List(hs) then Read2000256List() returns the same 2000 hashes.",
  "all lists of 2000 hashes",
  "tests exercise writer and reader on separate streams only.",
  [W+"BinaryWriter.Write2000256List", R+"BinaryReader.Read2000256List"])
p("Fixed8 survives serialization",
  "WriteFixed8(x) then ReadFixed8() returns x for every 64-bit amount, eight bytes; anything outside 64 bits raises and writes nothing.",
  "all integers",
  "2^64 amounts and the out-of-range rest.",
  [W+"BinaryWriter.WriteFixed8", R+"BinaryReader.ReadFixed8"])
p("SafeReadBytes is exact",
  "SafeReadBytes(n) either returns exactly the next n bytes or raises ValueError, the latter exactly when fewer than n remain; ReadBytes(n) returns the next min(n, remaining) bytes.",
  "all streams, positions, n >= 0",
  "all streams and lengths.",
  [R+"BinaryReader.SafeReadBytes", R+"BinaryReader.ReadBytes"])
p("Booleans, chars and doubles survive serialization",
  "WriteBool/ReadBool, WriteChar/ReadChar and WriteDouble/ReadDouble return the value written, for each byte order; ReadByte never raises and yields 0 at end of stream.",
  "all values including every one of the 2^64 double bit patterns",
  "bit-exactness over all patterns.",
  [W+"BinaryWriter.WriteBool", W+"BinaryWriter.WriteChar", W+"BinaryWriter.WriteDouble", R+"BinaryReader.ReadBool", R+"BinaryReader.ReadByte"])
p("swap32 is an involution reversing byte order",
  "swap32 maps each 32-bit value to the one with its four bytes reversed, is its own inverse, and raises outside 32 bits.",
  "all integers",
  "2^32 values.",
  [W+"swap32"])
p("convert_to_uint160/256 give the low bits",
  "convert_to_uint160(v) (resp. 256) is the 20-digit (32-digit) binary numeral of v mod 2^20 (2^32).",
  "all integers v",
  "fails only for some negative values.",
  [W+"convert_to_uint160", W+"convert_to_uint256"])
# ---------------- numbers ----------------
p("BigInteger byte encoding round trip",
  "FromBytes(x.ToByteArray(), signed=True) == x for every integer; for x >= 0 also FromBytes(x.ToByteArray(signed=False)) == x.",
  "all integers",
  "sign-bit boundaries occur at every byte length.",
  [B+"BigInteger.ToByteArray", B+"BigInteger.FromBytes"])
p("BigInteger byte encoding is minimal two's complement",
  "ToByteArray returns the shortest two's complement little-endian encoding (as .NET BigInteger.ToByteArray does).",
  "all integers",
  "minimality at every length.",
  [B+"BigInteger.ToByteArray"])
p("BigInteger arithmetic",
  "+, -, *, unary -, abs, //, /, %, <<, >> on BigIntegers yield BigIntegers with exact integer values; / is floor division; for b != 0, a == (a/b)*b + a%b with a%b having the sign of b and |a%b| < |b|; division by zero and negative shifts raise.",
  "all pairs of integers",
  "unbounded operands, all sign combinations.",
  [B+"BigInteger.__truediv__", B+"BigInteger.__mod__", B+"BigInteger.__floordiv__", B+"BigInteger.Sign"])
p("Fixed8 addition, subtraction, negation and comparison are exact",
  "Fixed8 +, -, unary - and the comparison operators agree exactly with those on the underlying integer amounts (so balances computed in any order agree, and == / < / > form a total order).",
  "all integer amounts, all sequences of additions and subtractions",
  "algebraic laws over all amounts and orders.",
  [F+"Fixed8.__add__", F+"Fixed8.__sub__", F+"Fixed8.__lt__", F+"Fixed8.__eq__"])
p("Fixed8 Floor, Ceil and ToInt are exact",
  "Floor (Ceil) is the largest (smallest) whole-unit amount not above (below) the amount; ToInt is the amount truncated to whole units.",
  "all 64-bit amounts",
  "goes through double-precision division: fails only for amounts above 2^27 units next to a whole unit.",
  [F+"Fixed8.Floor", F+"Fixed8.Ceil", F+"Fixed8.ToInt"])
p("Fixed8 division truncates exactly",
  "a / b is the quotient of the underlying integers truncated toward zero.",
  "all pairs of amounts",
  "floating-point rounding shows only for large quotients.",
  [F+"Fixed8.__truediv__", F+"Fixed8.__floordiv__", F+"Fixed8.__mod__"])
p("Fixed8.FromDecimal is exact on floats denoting amounts with at most 8 decimals",
  "FromDecimal of the double nearest to v/10^8 is the amount v.",
  "all amounts v",
  "truncation errors affect scattered values only.",
  [F+"Fixed8.FromDecimal"])
p("Fixed8.TryParse is total and exact on whole units",
  "TryParse never raises, whatever text or number it is given; for a whole number of units it is exact.",
  "all numbers and all strings",
  "special strings (inf, nan, huge exponents) and rounding.",
  [F+"Fixed8.TryParse"])
p("Fixed8 text output denotes the exact amount",
  "ToString()/ToNeoJsonString() denote the decimal number value/10^8 exactly.",
  "all 64-bit amounts",
  "shortest-repr of a rounded double: exact only below 10^15.",
  [F+"Fixed8.ToString", F+"Fixed8.ToNeoJsonString"])
# ---------------- UInt ----------------
p("UInt ParseString/ToString are inverse and ParseString accepts exactly the valid strings",
  "ParseString accepts exactly 40 (64) hex digits in any case, optionally prefixed by 0x, and raises on anything else; ParseString(u.ToString()) == ParseString(u.To0xString()) == u; ToString of a parsed string is its lower-case digits.",
  "all strings; all values",
  "all strings of all lengths, incl. embedded blanks (which bytearray.fromhex skips).",
  ["neocore/UInt160.py:UInt160.ParseString", "neocore/UInt256.py:UInt256.ParseString", U+"UIntBase.ToString", U+"UIntBase.To0xString"])
p("UInt hash stays consistent with equality under mutation",
  "Equal objects have equal hash, through any history of constructions, Deserialize calls and mutations of the byte arrays objects were built from.",
  "all values and all histories of operations",
  "needs every interleaving of construction, deserialization and aliasing mutation.",
  [U+"UIntBase.__init__", U+"UIntBase.__eq__", U+"UIntBase.__hash__", U+"UIntBase.Deserialize"])
p("UInt ordering is a total order consistent with equality",
  "CompareTo orders values by their little-endian number: it is -1/0/1 exactly as the number is smaller/equal/larger, hence antisymmetric and 0 only for equal values.",
  "all pairs/triples of values of equal length",
  "a wrong loop bound shows only when values differ in a single byte position.",
  [U+"UIntBase.CompareTo", U+"UIntBase.__lt__", U+"UIntBase.__le__"])
p("A UInt keeps its size",
  "A UInt160 always holds 20 bytes and a UInt256 32, through any history of constructions and Deserialize calls; Deserialize from a stream that is too short fails.",
  "all histories; all streams",
  "all truncation points of all streams.",
  [U+"UIntBase.__init__", U+"UIntBase.Deserialize", U+"UIntBase.Size"])
# ---------------- helper / address / keys ----------------
p("Base58 is lossless",
  "Decoding the Base58 text of any byte string returns that byte string, and encoding what a Base58 text decodes to returns that text; so texts and byte strings correspond one to one.",
  "all byte strings, all Base58 texts",
  "leading zeros and every length.",
  [H+"scripthash_to_address", K+"KeyPair.Export", L+"address_to_scripthash"])
p("Address <-> script hash",
  "For every 20-byte script hash h, address_to_scripthash(scripthash_to_address(h)) == h; different script hashes have different addresses.",
  "all 2^160 script hashes",
  "all hashes.",
  [H+"scripthash_to_address", C+"Crypto.ToAddress", L+"address_to_scripthash"])
p("Every generated address is a valid public address",
  "For every script hash, the generated address has 34 characters, starts with 'A', and isValidPublicAddress accepts it.",
  "all 2^160 script hashes",
  "length and first character depend on the whole number range.",
  [H+"scripthash_to_address", "neocore/Utils.py:isValidPublicAddress"])
p("isValidPublicAddress accepts only NEO addresses",
  "isValidPublicAddress(s) is true exactly when s is the address of some script hash (version byte 23, right checksum).",
  "all strings",
  "all 34-character strings; near-miss version bytes.",
  ["neocore/Utils.py:isValidPublicAddress"])
p("np-utils address_to_scripthash rejects foreign addresses",
  "address_to_scripthash raises ConversionError unless the text is a NEO address (version byte 0x17, 20-byte hash, right checksum).",
  "all strings",
  "all other version bytes and lengths.",
  [L+"address_to_scripthash"])
p("np-utils scripthash_to_address handles both byte orders and fails cleanly",
  "For every script hash the little-endian hex form and the 0x-prefixed big-endian form give the same address, the inverse of address_to_scripthash; every other string raises ConversionError, never anything else.",
  "all strings, all script hashes",
  "all malformed strings.",
  [L+"scripthash_to_address", "neocore/UInt160.py:UInt160.ParseString"])
p("WIF export/import round trip",
  "PrivateKeyFromWIF(kp.Export()) returns kp's 32-byte private key; the text has 52 characters.",
  "all 2^256 private keys",
  "length and format hold for the whole range of keys.",
  [K+"KeyPair.Export", K+"KeyPair.PrivateKeyFromWIF"])
p("WIF import accepts only canonical WIFs",
  "If PrivateKeyFromWIF(w) returns k then w is exactly the WIF export of k; anything else of any form raises. So one key never has two accepted WIFs.",
  "all strings",
  "all 52-character strings.",
  [K+"KeyPair.PrivateKeyFromWIF"])
p("NEP-2 encryption round trip",
  "PrivateKeyFromNEP2(kp.ExportNEP2(pw), pw) returns kp's private key for every key and passphrase of at least 2 characters; shorter passphrases raise.",
  "all private keys, all passphrases",
  "all keys and passphrases; scrypt/AES treated by contract.",
  [K+"KeyPair.ExportNEP2", K+"KeyPair.PrivateKeyFromNEP2", H+"xor_bytes"])
p("NEP-2 import never returns a key for the wrong address",
  "If PrivateKeyFromNEP2 returns k then the double-SHA256 of k's address begins with the 4 address-hash bytes stored in the text, and the text is a well-formed NEP-2 record (prefix 0x0142, flag 0xe0, 39 bytes).",
  "all texts and passphrases",
  "all malformed records.",
  [K+"KeyPair.PrivateKeyFromNEP2"])
p("Key pair construction",
  "KeyPair accepts exactly 32-, 96- and 104-byte keys; PrivateKey is the last 32 bytes; for 96/104 bytes the public key is the embedded point, for 32 bytes the derived one.",
  "all byte strings",
  "all lengths and contents.",
  [K+"KeyPair.__init__"])
p("All ways to derive an address from a public key agree",
  "KeyPair.GetAddress(), Helper.scripthash_to_address(pubkey_to_pubhash(encoded key)) and Crypto.ToAddress(ToScriptHash(verification script)) are the same address for every public key.",
  "all public keys",
  "all keys.",
  [K+"KeyPair.GetAddress", H+"pubkey_to_redeem", H+"pubkey_to_pubhash", C+"Crypto.ToScriptHash", C+"Crypto.ToAddress"])
p("xor_bytes",
  "xor_bytes is defined exactly on equal-length inputs, keeps the length, is commutative and associative, and xor-ing twice with the same key restores the input.",
  "all byte strings",
  "all lengths and contents.",
  [H+"xor_bytes"])
p("base256_encode",
  "base256_encode(n, w) is the little-endian base-256 form of n, without superfluous zeros beyond max(w, 1) bytes; int.from_bytes(..,'little') inverts it; negatives raise.",
  "all integers n, all w",
  "unbounded integers.",
  [H+"base256_encode"])
p("Hash helper consistency",
  "double_sha256 is the hex of bin_dbl_sha256 (= Crypto.Hash256), bin_hash160 is the hex of bin_hash160Bytes, ToScriptHash(hex d) equals ToScriptHash(d, unhex=False) and always has 20 bytes; random_key is always 64 hex digits.",
  "all messages, all hash functions of the right output size",
  "all inputs.",
  [H+"double_sha256", H+"bin_dbl_sha256", H+"bin_hash160", C+"Crypto.ToScriptHash", C+"Crypto.Hash256", H+"random_key"])
# ---------------- Crypto global state ----------------
p("Signing uses the NEO curve in every call history",
  "Crypto.Sign and Crypto.VerifySignature with a compressed key use secp256r1 parameters whatever library calls were made before.",
  "all call histories from a fresh process",
  "curve parameters are process-global state set by side effect of other calls.",
  [C+"Crypto.SetupSignatureCurve", C+"Crypto.Default", C+"Crypto.Sign", C+"Crypto.VerifySignature", K+"KeyPair.setup_curve"])
p("VerifySignature is a total predicate",
  "VerifySignature returns True or False and never raises, whatever message, signature and key it is given, and accepts every valid ECDSA signature.",
  "all messages, keys and signatures",
  "all malformed inputs.",
  [C+"Crypto.Sign", C+"Crypto.VerifySignature"])
# ---------------- Merkle ----------------
p("Merkle root is the standard pairwise double-SHA256 root",
  "ComputeRoot(hs) equals the root obtained by repeatedly hashing adjacent pairs (duplicating the last element of odd levels); the empty list raises.",
  "all nonempty hash lists, any hash function",
  "all list lengths.",
  [M+"MerkleTree.ComputeRoot", M+"MerkleTree.__Build"])
p("Merkle root binds the list",
  "Two different lists with the same root yield an explicit collision of the double hash.",
  "all pairs of lists",
  "needs reasoning over all lists, and fails for lists of different length.",
  [M+"MerkleTree.ComputeRoot"])
p("Merkle depth",
  "Depth of the tree over n hashes is 1 + ceil(log2 n), and every leaf is at that depth.",
  "all n >= 1",
  "all sizes.",
  [M+"MerkleTree.__init__"])
p("ToHashArray returns exactly the leaves",
  "ToHashArray returns each distinct leaf hash exactly once and nothing else.",
  "all hash lists",
  "all lists with repetitions.",
  [M+"MerkleTree.ToHashArray", M+"MerkleTree.__DepthFirstSearch"])
p("Trim keeps the root hash and removes exactly the unflagged subtrees",
  "Trim(flags) removes exactly those bottom pairs (and parents left without remaining children) whose two flags are both zero.",
  "all trees, all flag strings",
  "all shapes and flag patterns.",
  [M+"MerkleTree.Trim", M+"MerkleTree._TrimNode"])
p("Merkle node links are consistent",
  "In a built tree the root is the only node without parent, each child's Parent is the node it hangs from, and IsLeaf holds exactly for the nodes created for the input hashes.",
  "all nonempty hash lists",
  "pointer structure of every size, with shared nodes on odd levels.",
  [M+"MerkleTree.__Build", M+"MerkleTreeNode.IsRoot", M+"MerkleTreeNode.IsLeaf"])
# ---------------- finite field / curve ----------------
p("modinv",
  "modinv(x, m) is an inverse of x mod m whenever gcd(x, m) = 1.",
  "all integers",
  "unbounded integers, termination included.",
  [E+"modinv"])
p("FiniteField division",
  "/ on FiniteField values agrees with division mod p; division by zero raises.",
  "all primes p, all values (reduced or not)",
  "all operands and moduli.",
  [E+"FiniteField", E+"FiniteField.Value"])
p("Point addition is the elliptic-curve group law",
  "For points on the curve, + agrees with the chord-and-tangent group law: result on curve, commutative, associative, (0,0)/Infinity neutral.",
  "all primes p > 3, all nonsingular curves with b != 0, all points",
  "all points; associativity ranges over triples.",
  [E+"EllipticCurve.add", E+"EllipticCurve.zero", E+"EllipticCurve.isoncurve"])
p("Point negation and subtraction",
  "-P is the group inverse and P - Q = P + (-Q) for all points including Infinity; in particular P - Infinity = P and P - P = Infinity.",
  "all curves and points",
  "special points (Infinity, 2-torsion).",
  [E+"EllipticCurve.neg", E+"EllipticCurve.sub"])
p("Scalar multiplication",
  "P * n is the n-fold sum of P; hence ECDSA.calcpub(x) is the x-multiple of the generator.",
  "all points and scalars",
  "all scalars.",
  [E+"EllipticCurve.mul", E+"ECDSA.calcpub"])
p("Modular square root is found when it exists",
  "sqrtCQ(v, p) finds a root whenever v is a square mod a prime p.",
  "all v, all primes p",
  "all residues; primes of both residue classes mod 4.",
  [E+"sqrtCQ", E+"FiniteField.sqrt"])
p("Public key encoding round trip",
  "decode_from_hex(P.encode_point(c)) == P for both forms and for Infinity, and Deserialize_Secp256r1 reads back both forms.",
  "all points of secp256r1",
  "all points; requires primality of p and correctness of the square root.",
  [E+"ECPoint.encode_point", E+"EllipticCurve.decode_from_hex", E+"EllipticCurve.decode_from_reader", E+"ECPoint.Serialize", E+"EllipticCurve.decompress_from_curve", E+"ECPoint.Size"])
p("Decoded public keys are on the curve",
  "ECDSA.decode_secp256r1 (with its check) and Deserialize_Secp256r1 only ever return points of the curve or Infinity, for any input; every other input raises.",
  "all byte strings",
  "adversarial inputs.",
  [E+"ECDSA.decode_secp256r1", E+"ECDSA.Deserialize_Secp256r1", E+"EllipticCurve.decode_from_hex"])
p("FromBytes_Secp256r1 decodes all its documented lengths",
  "FromBytes_Secp256r1 decodes 33/65-byte (prefixed), 64/72-byte and 96/104-byte keys to the contained point.",
  "all byte strings of those lengths",
  "all contents; tests do not cover it.",
  [E+"ECDSA.FromBytes_Secp256r1"])
p("Point order",
  "<, <=, >, >= on points form a total order consistent with == (so sorting public keys is deterministic).",
  "all pairs of points",
  "differs only for points sharing an x coordinate.",
  [E+"ECPoint.__lt__", E+"ECPoint.__gt__", E+"ECPoint.__le__", E+"ECPoint.__ge__"])
p("Nonce reuse recovery from plain integers",
  "crack2 called with plain integers recovers nonce and key from any two signatures sharing r, whenever the divisions are by nonzero values.",
  "all prime orders, keys, nonces and messages",
  "algebra over all values.",
  [E+"ECDSA.crack2"])
p("ECDSA sign/verify on secp256r1",
  "ECDSA.secp256r1().verify(m, Y, *sign(m, x, k)) holds for Y = calcpub(x).",
  "all messages, keys and nonces",
  "all values.",
  [E+"ECDSA.sign", E+"ECDSA.verify", E+"ECDSA.secp256r1", E+"ECDSA.SignSecp256R1"])
p("Lucas sequences",
  "_lucas_sequence(n, P, Q, k) returns (U_k(P,Q) mod n, V_k(P,Q) mod n) for odd n; it rejects n < 2, k < 0 and zero discriminant.",
  "all odd n >= 2, all P, Q, k",
  "three code branches over unbounded parameters.",
  [E+"_lucas_sequence"])
p("next_random_integer stays in range",
  "next_random_integer(s) returns a value below 2^s for every s >= 0 and every random outcome.",
  "all sizes and random outcomes",
  "all random outcomes.",
  [E+"next_random_integer"])
p("Fixed8 multiplication and division scale amounts",
  "Fixed8 * and / act on amounts: x * Fixed8.One() == x, x / Fixed8.One() == x, and a * b denotes the product of the two decimal numbers.",
  "all pairs of amounts",
  "all pairs of values; a test on zero passes.",
  ["neocore/Fixed8.py:Fixed8.__mul__", "neocore/Fixed8.py:Fixed8.__truediv__", "neocore/Fixed8.py:Fixed8.__pow__"])
p("FiniteField.sqrt",
  "For an odd prime p not congruent 1 mod 8, F.value(v).sqrt(flag) is the square root of v with parity flag, whenever v is a nonzero square mod p; other moduli are refused.",
  "all such primes, all squares, both parities",
  "all primes and all squares; small-prime tests pass while the curve's own prime fails.",
  [E+"FiniteField.sqrt"])
p("Public key text form",
  "ECPoint.ToString()/ToBytes() are the hex text of the 33-byte compressed encoding, so decode_from_hex(P.ToString()) == P.",
  "all points of secp256r1",
  "2^256 points.",
  [E+"EllipticCurve.ECPoint.ToString", E+"EllipticCurve.ECPoint.ToBytes"])
p("One encoding per public key",
  "Two different byte strings of the same length that decode_secp256r1 accepts never give equal points (==), other than Infinity: encodings are canonical.",
  "all pairs of byte strings",
  "pairs of 33- and 65-byte strings; collisions only occur for coordinates above the field prime.",
  [E+"EllipticCurve.decode_from_hex", E+"ECDSA.decode_secp256r1"])
p("Truncated public keys are refused",
  "Deserialize_Secp256r1 raises when the stream ends before the key is complete.",
  "all streams",
  "all truncation points of all keys.",
  [E+"EllipticCurve.decode_from_reader", E+"ECDSA.Deserialize_Secp256r1", "neocore/IO/BinaryReader.py:BinaryReader.ReadByte"])
p("Point decompression",
  "EllipticCurve.decompress(x, flag) is the point of the curve with that x and a y of that parity, whenever one exists.",
  "all curves over primes not congruent 1 mod 8, all points, both parities",
  "all primes and points; small-prime tests pass while the curve's own prime fails.",
  [E+"EllipticCurve.decompress", E+"FiniteField.sqrt"])
p("What Sign produces, VerifySignature accepts",
  "For every message and every private key with a number in 1..n-1, the signature returned by Crypto.Sign has s at most n/2 and is accepted by Crypto.VerifySignature for the same message and the public key of that private key, however that key is given (point object, 64 bytes, 33 bytes).",
  "all messages, private keys, nonces, and forms of the public key",
  "the rare nonces and keys with a coordinate between n and p cannot be found by sampling",
  [C+"Crypto.Sign", C+"Crypto.VerifySignature", K+"KeyPair.__init__"])
p("VarInt round trip with the default bound",
  "A caller that leaves ReadVarInt's max at its default gets back every value below 2^64 that WriteVarInt wrote.",
  "all v in [0, 2^64), all following bytes",
  "the upper half of the 64-bit range behaves differently from the lower half.",
  [W+"BinaryWriter.WriteVarInt", R+"BinaryReader.ReadVarInt"])
p("WriteFixedString refuses strings that are too long",
  "WriteFixedString(s, n) raises whenever the UTF-8 form of s is longer than n bytes, and then leaves the stream exactly as it was.",
  "all strings, all n (negative too), all stream states",
  "multi-byte characters at every length.",
  [W+"BinaryWriter.WriteFixedString"])
p("Raw writes are exact",
  "WriteBytes(b, unhex=False) appends exactly b and returns len(b); with the default unhex=True the bytes appended are b exactly when b is empty or is not an even-length string of ASCII hex digits.",
  "all byte strings b",
  "the second claim is an equivalence over all contents.",
  [W+"BinaryWriter.WriteBytes"])
p("Fixed8 floor division and remainder are exact",
  "a // b is the floor of the exact quotient of the amounts, a == (a // b) * b + a % b with a % b between 0 and b on b's side; dividing by zero raises ZeroDivisionError in all three forms /, // and %.",
  "all pairs of amounts",
  "all sign combinations and sizes.",
  [F+"Fixed8.__floordiv__", F+"Fixed8.__mod__", F+"Fixed8.__truediv__"])
p("Fixed8.FromDecimal of ints and Decimals is exact",
  "FromDecimal(n) is n units exactly for every int n; FromDecimal of a Decimal of at most 28 digits and below 10^999992 is exact if it has at most 8 decimals, and truncates toward zero otherwise; larger ones raise decimal.Overflow, a NaN ValueError, an infinity OverflowError, a signalling NaN decimal.InvalidOperation.",
  "all integers; all Decimals with at most 28 significant digits",
  "all coefficients and exponents; context rounding must never show.",
  [F+"Fixed8.FromDecimal"])
p("Fixed8.TryParse: no number gives None, require_positive gives no negative",
  "TryParse returns None on whatever neither float() nor int() accepts; with require_positive it never returns a negative amount.",
  "all arguments, whatever float() and int() make of them",
  "all strings and numbers.",
  [F+"Fixed8.TryParse"])
p("UInt equality is equality of contents and the hash is a function of them",
  "u == v holds exactly when v is a UInt with the same bytes; GetHashCode is the little-endian number of the first four bytes, for every object reached by constructions and Deserialize calls as long as no client mutates a byte array it handed to a constructor.",
  "all values and all histories without such mutations",
  "all histories of operations.",
  [U+"UIntBase.__eq__", U+"UIntBase.__hash__", U+"UIntBase.GetHashCode"])
p("UInt comparison operators agree with CompareTo",
  "For values of one length <, <=, >, >= are true exactly as CompareTo is negative, non-positive, positive, non-negative; CompareTo(x, y) = -CompareTo(y, x), is 0 on equal values and <= is transitive; comparing with anything of another type or length raises.",
  "all triples of values; all other arguments",
  "quantifies over triples of values.",
  [U+"UIntBase.CompareTo", U+"UIntBase.__lt__", U+"UIntBase.__le__", U+"UIntBase.__gt__", U+"UIntBase.__ge__"])
p("UInt constructors accept exactly data of the right size",
  "UInt160/UInt256 built from nothing hold 20/32 zero bytes; built from bytes or bytearray of exactly 20/32 bytes hold those bytes; every other argument raises (Exception for bytes, bytearrays and texts, TypeError for objects without a length).",
  "all constructor arguments",
  "all types, lengths and contents.",
  [U+"UIntBase.__init__"])
p("isValidPublicAddress is total and accepts every NEO address",
  "isValidPublicAddress never raises for a string and returns True for the address of every script hash.",
  "all strings; all script hashes",
  "all malformed strings.",
  ["neocore/Utils.py:isValidPublicAddress"])
p("After a KeyPair or SetupSignatureCurve, signing uses secp256r1",
  "In every call history that contains a KeyPair construction, SetupSignatureCurve, Crypto.Default, Export or create_wallet, Sign and VerifySignature behave as in a process that only called SetupSignatureCurve; both places in the code that set the curve set the same secp256r1 parameters.",
  "all call histories, all arguments",
  "curve parameters are process-global state changed by side effect.",
  [C+"Crypto.SetupSignatureCurve", C+"Crypto.Default", C+"Crypto.Sign", K+"KeyPair.setup_curve"])
p("Sign returns r and s as 32 + 32 bytes",
  "Crypto.Sign(message, key) returns exactly the 32-byte big-endian form of r followed by that of s, for the signature (r, s) of the SHA-256 digest of the unhexlified message; it returns nothing else.",
  "all messages, all keys, all curve states",
  "padding of small r or s.",
  [C+"Crypto.Sign"])
p("VerifySignature returns True exactly for valid signatures",
  "VerifySignature returns True exactly when the key denotes a point of secp256r1 with coordinates below n, the signature is 64 bytes r||s and (r, s) satisfies the ECDSA equation for the SHA-256 digest of the message.",
  "all messages, signatures, keys (points, 64 or 33 bytes, hex), both unhex modes",
  "a forgery accepted for one malformed input would not show in tests.",
  [C+"Crypto.VerifySignature", E+"ECDSA.decode_secp256r1"])
p("Effect of Trim",
  "Trim(flags) never raises on a constructed tree, keeps root, depth, every hash and every parent link, and cuts everything below the root if the first two flags are zero, otherwise nothing.",
  "all trees, all flag strings",
  "all shapes and flag patterns.",
  [M+"MerkleTree.Trim", M+"MerkleTree._TrimNode"])
p("Extended Euclid",
  "GCD(a, b) terminates and returns (g, c, d) with a*c + b*d = g, where g divides a and b and every common divisor divides g.",
  "all pairs of integers",
  "unbounded integers, all signs, termination included.",
  [E+"GCD"])
p("FiniteField ring operations are arithmetic mod p",
  "+, -, * and ** with a non-negative exponent give the residue of the exact result in [0, p); unary - is congruent to the negative; == is congruence mod p.",
  "all p > 0, all values (reduced or not), all exponents",
  "all operands and moduli.",
  [E+"FiniteField", E+"FiniteField.Value"])
p("Modular square roots are roots",
  "Whenever sqrtCQ(v, p) returns r then r*r = v mod p and 0 <= r < p.",
  "all v, all p > 0",
  "all residues and moduli.",
  [E+"sqrtCQ"])
p("Public keys survive stream serialisation",
  "Deserialize_Secp256r1 of P.Serialize() is P and consumes exactly Size() bytes: 33, or 1 for Infinity; distinct points have distinct encodings, in both forms.",
  "all points of secp256r1, Infinity included; all following bytes",
  "all points; requires primality of p and correctness of the square root.",
  [E+"ECPoint.Serialize", E+"ECDSA.Deserialize_Secp256r1", E+"ECPoint.Size", E+"ECPoint.encode_point", E+"EllipticCurve.decompress_from_curve"])
p("Public key comparison is a partial order",
  "<= on points is reflexive, transitive and antisymmetric; < is <= without ==; > and >= are the converses; two different points are comparable exactly when their x coordinates differ.",
  "all triples of points with reduced coordinates",
  "quantifies over triples of points.",
  [E+"ECPoint.__lt__", E+"ECPoint.__gt__", E+"ECPoint.__le__", E+"ECPoint.__ge__"])
p("A leaked or repeated nonce gives the private key",
  "crack1 recovers the private key from a signature made by sign and its nonce; crack2 recovers nonce and key from the two values returned by sign for two messages with one nonce, whenever the divisors are not multiples of the order.",
  "all prime orders, keys, nonces and messages",
  "algebra over all values.",
  [E+"ECDSA.crack1", E+"ECDSA.crack2", E+"ECDSA.sign"])
p("BigInteger bytes are two's complement",
  "ToByteArray(signed=True) is a nonempty two's complement little-endian form of the value, at most one byte longer than the shortest one, and the shortest one for every value >= 0.",
  "all integers",
  "sign-bit boundaries occur at every byte length.",
  [B+"BigInteger.ToByteArray"])
p("NEP-2 import returns only keys of the stored address",
  "If PrivateKeyFromNEP2(text, pw) returns k, then the text has 58 characters and a right Base58 checksum, k is a 32-byte key with number in 1..n-1, and the double SHA-256 of the address of its public key begins with the 4 address-hash bytes in the text.",
  "all texts and passphrases",
  "all malformed records and wrong passphrases.",
  [K+"KeyPair.PrivateKeyFromNEP2"])
p("Merkle root binds lists of one length",
  "From two different lists of equal length with the same root one gets two different strings, hashed while computing the two roots, with the same double hash.",
  "all pairs of lists of equal length, every hash function",
  "needs reasoning over all pairs of lists.",
  [M+"MerkleTree.ComputeRoot"])
p("NEP-2 round trip of every valid private key",
  "For every 32-byte private key with number in 1..n-1 and every passphrase of at least two characters, ExportNEP2 gives a 58-character text from which PrivateKeyFromNEP2 with the same passphrase returns the key; shorter passphrases raise ValueError.",
  "all private keys 1..n-1, all passphrases",
  "all keys and passphrases; scrypt/AES treated by contract.",
  [K+"KeyPair.ExportNEP2", K+"KeyPair.PrivateKeyFromNEP2", H+"xor_bytes"])
p("Negation and subtraction of finite points",
  "For a finite point Q of a curve, -Q is its group inverse and P - Q = P + (-Q) for every point P, with results on the curve; Q - Q is Infinity and Infinity - Q is -Q.",
  "all proper curves over primes, all points P, all finite Q",
  "special points (2-torsion).",
  [E+"EllipticCurve.neg", E+"EllipticCurve.sub"])
p("Floats are rounded to the nearest binary32 number",
  "WriteFloat of a finite Python float of magnitude below 2^128 - 2^103 appends four bytes from which ReadFloat (same byte order) returns the binary32 number nearest to it, ties to even, with the same sign (also of zero); a number binary32 can hold, an infinity and a NaN come back as they were; a larger finite float raises OverflowError and nothing is written.",
  "all floats, both byte orders, all streams",
  "2^64 floats; ties, subnormals, signed zeros and the overflow threshold are corner cases.",
  [W+"BinaryWriter.WriteFloat", R+"BinaryReader.ReadFloat"])
p("Bytes read as a float or double are written back unchanged",
  "Whatever four (eight) bytes ReadFloat (ReadDouble) turned into a number that is no NaN, WriteFloat (WriteDouble) of that number in the same byte order appends the same bytes.",
  "all 2^32 and 2^64 byte patterns, both byte orders",
  "needs every pattern, with subnormals, infinities and signed zeros.",
  [W+"BinaryWriter.WriteFloat", W+"BinaryWriter.WriteDouble", R+"BinaryReader.ReadFloat", R+"BinaryReader.ReadDouble"])
p("Doubles survive serialisation",
  "Every Python float survives WriteDouble then ReadDouble unchanged: all finite floats with their sign, subnormals, both zeros, both infinities; a NaN is read back as a NaN.",
  "all floats, both byte orders, all streams",
  "2^64 floats.",
  [W+"BinaryWriter.WriteDouble", R+"BinaryReader.ReadDouble"])
p("WriteDouble accepts ints",
  "WriteDouble of an int is read back as the nearest binary64 number, ties to even (exactly for magnitudes up to 2^53); an int of magnitude from 2^1024 - 2^970, and an object that is no number, raise struct.error and nothing is written.",
  "all ints, both byte orders, all streams",
  "all ints, with the rounding boundary.",
  [W+"BinaryWriter.WriteDouble", R+"BinaryReader.ReadDouble"])
p("WriteFloat accepts ints",
  "WriteFloat of an int below 2^128 - 2^103 in magnitude is read back as the nearest binary32 number, ties to even; an object that is no number raises struct.error and nothing is written.",
  "all ints, both byte orders, all streams",
  "all ints, with the rounding boundary.",
  [W+"BinaryWriter.WriteFloat", R+"BinaryReader.ReadFloat"])
p("create_wallet makes a usable wallet",
  "For every 32 random bytes whose number is 1..n-1, create_wallet() returns the WIF of those bytes (52 characters, PrivateKeyFromWIF gives them back) and the valid address of their public key, the one KeyPair(...).GetAddress() computes again from the WIF; np-utils --create-wallet prints exactly these two. For every other draw no wallet is returned or printed.",
  "all 32-byte draws of the random generator, all states of the global curve",
  "2^256 draws.",
  ["neocore/bin/cli.py:create_wallet", "neocore/bin/cli.py:main", K+"KeyPair.Export", K+"KeyPair.GetAddress"])
p("Address version setting",
  "With ADDRESS_VERSION set to any byte value the address of a script hash is the Base58Check text of that version byte and the hash, and address_to_scripthash gives the hash back; different (version, hash) pairs have different addresses; 23 is the default; values outside 0..255 raise ValueError.",
  "all version settings, all script hashes",
  "256 settings times all hashes; injectivity is about pairs.",
  [H+"scripthash_to_address", "neocore/bin/cli.py:address_to_scripthash"])
p("np-utils conversions compose",
  "np-utils --address-to-scripthash of any address prints the script hash in big-endian hex, little-endian hex and as a Python bytes literal with that value, and exits normally; feeding either hex text to np-utils --scripthash-to-address prints that address.",
  "all script hashes of twenty bytes",
  "2^160 script hashes, and every escape in the bytes literal.",
  ["neocore/bin/cli.py:main", "neocore/bin/cli.py:address_to_scripthash", "neocore/bin/cli.py:scripthash_to_address"])
p("np-utils --scripthash-to-address always ends cleanly",
  "For every argument text np-utils --scripthash-to-address either prints the address of the script hash it writes and exits normally, or prints \"Wrong format\" last and exits with status 1; it never ends in a traceback.",
  "all argument texts",
  "all texts.",
  ["neocore/bin/cli.py:main", "neocore/bin/cli.py:scripthash_to_address"])
p("np-utils --address-to-scripthash always ends cleanly",
  "For every argument text np-utils --address-to-scripthash either prints three lines and exits normally, or prints a message and exits with status 1; it never ends in a traceback.",
  "all argument texts",
  "all texts.",
  ["neocore/bin/cli.py:main", "neocore/bin/cli.py:address_to_scripthash"])
p("Field operators with mixed operands",
  "For every value v of a FiniteField with positive modulus p and every int, even-length hexadecimal text or field value x standing for the integer n, v+x, v-x, v*x (and x+v, x-v, x*v, v**x for n >= 0, x**v for v's integer >= 0) are reduced values of v's field congruent to the sum, difference, product or power; a text that is not hexadecimal raises on either side; the field's own methods answer False when given values of two different fields.",
  "all positive moduli, all integers including negative and unreduced ones, all texts, all pairs of fields",
  "infinitely many operand combinations.",
  [E+"FiniteField.Value", E+"FiniteField.add", E+"FiniteField.pow", E+"FiniteField.integer"])
p("Division with ints and field values on either side",
  "For every field value v and every x standing for an integer coprime to the modulus, v / x and x / v are the field quotients and v.inverse() is the inverse of v.",
  "all moduli, all values, all operands coprime to the modulus",
  "infinitely many operand combinations.",
  [E+"FiniteField.Value", E+"FiniteField.div", E+"FiniteField.inverse"])
p("iszero tells whether a field value is zero",
  "For every field value v, v.iszero() is true exactly if v == 0.",
  "all moduli, all values, reduced or not",
  "infinitely many values.",
  [E+"FiniteField.Value"])
p("The text of a field value is its hexadecimal numeral",
  "For every field value v with a non-negative integer, str(v) is 0x followed by hexadecimal digits that write that integer.",
  "all values",
  "infinitely many values.",
  [E+"FiniteField.Value", E+"FiniteField.str"])
p("Equality of a field value is congruence",
  "For every field value v and every int, hexadecimal text or field value x standing for n, v == x is true exactly if v's integer and n are congruent modulo v's modulus, and v != x is its negation.",
  "all positive moduli, all values, all operands",
  "infinitely many operand combinations.",
  [E+"FiniteField.Value", E+"FiniteField.eq"])
p("Equality of field values is an equivalence",
  "For all field values, == is reflexive, symmetric and transitive.",
  "all pairs and triples of field values, of one or several fields",
  "all triples of values.",
  [E+"FiniteField.Value", E+"FiniteField.eq"])
p("Different scalars give different multiples",
  "For every finite point P of secp256r1, in particular the base point, and all scalars 0 <= m < n < the group order, P * m and P * n are different points; so calcpub gives different private keys different public keys.",
  "all points, all pairs of scalars below the group order",
  "about 2^512 pairs of scalars.",
  [E+"EllipticCurve.mul", E+"ECDSA.calcpub"])
p("Negative scalars give the negative multiple",
  "For every point P of the curve and every int n, P * -n equals -(P * n).",
  "all points, all ints",
  "infinitely many scalars.",
  [E+"EllipticCurve.mul", E+"EllipticCurve.neg"])
p("A multiple of a finite point is a finite point",
  "For every finite point P of secp256r1 and every n with 0 < |n| <= 2^256, P * n returns, and the result is a finite point of the curve; in particular calcpub of every non-zero 32-byte private key is a point of the curve and not Infinity.",
  "all finite points of the curve, all scalars up to 2^256",
  "about 2^512 combinations; the result depends on float rounding inside the multiplication.",
  [E+"EllipticCurve.mul", E+"ECDSA.calcpub", E+"EllipticCurve.isoncurve"])
p("Private and public keys correspond one to one",
  "KeyPair of different 32-byte private keys never gives the same PublicKey, and every point of secp256r1 is the PublicKey of exactly one 32-byte private key, which is 0 exactly for Infinity.",
  "all pairs of 32-byte keys, all points of the curve",
  "about 2^512 pairs.",
  [K+"KeyPair.__init__", K+"KeyPair.setup_curve"])
p("Division of a point undoes multiplication",
  "For every finite point P of a curve whose group has prime order n and every a not divisible by n, given as an int or as a value of FiniteField(n), P / a is the point Q of which P is the a-fold sum.",
  "all points, all divisors",
  "infinitely many divisors and about 2^256 points.",
  [E+"EllipticCurve.div", E+"EllipticCurve.ECPoint"])
p("Public keys are recovered from signatures",
  "For every message, private key and nonce, findpk applied to the message and the signature sign returns gives, with the right flag, the signer's public key; findpk2 gives it from two signatures of the same message.",
  "all messages, private keys, nonces",
  "about 2^768 combinations.",
  [E+"ECDSA.findpk", E+"ECDSA.findpk2", E+"ECDSA.sign"])
p("The text of a point determines it",
  "For all points P and Q, str(P) = str(Q) exactly if P and Q have the same integer coordinates.",
  "all pairs of integer coordinates",
  "infinitely many points.",
  [E+"EllipticCurve.ECPoint", E+"FiniteField.Value"])
p("Every fixed-width byte pattern is one integer",
  "For each of the eight fixed-width integer formats and each byte order, every byte string of that width is read as the in-range value whose two's complement it is, and writing that value gives the same bytes; with fewer bytes left the read raises struct.error and stands at the end of the stream.",
  "all byte strings of each width, all streams",
  "2^64 byte patterns for the widest format; any stream may surround them.",
  [R+"BinaryReader.ReadInt8", R+"BinaryReader.ReadUInt64", R+"BinaryReader.unpack", W+"BinaryWriter.pack"])
p("ReadVarInt decodes every stream",
  "For every stream and every max >= 0, ReadVarInt(max) returns the variable-length integer at the position (0 if nothing is left) and moves exactly past it if it is at most max; if it is larger it raises, positioned behind it; if the data ends inside it, it raises struct.error, positioned at the end.",
  "all streams, positions and bounds",
  "arbitrary streams from untrusted peers.",
  [R+"BinaryReader.ReadVarInt"])
p("WriteVarInt's effect is determined for every argument",
  "Whatever object WriteVarInt is given, exactly one of these happens, and earlier bytes never change: no integer -> TypeError, stream untouched; negative -> exception, stream untouched; BigInteger or bool below 0xfd -> returns, nothing written; other integers below 2^64 -> exactly the bytes that decode to that number; 2^64 and above -> struct.error and one byte 0xff left behind.",
  "all Python arguments, all earlier contents of the stream, both byte orders",
  "unbounded integers and arbitrary objects.",
  [W+"BinaryWriter.WriteVarInt", W+"BinaryWriter.WriteByte"])
p("Truncated records are refused",
  "If a stream ends anywhere strictly inside the bytes that were written for a record, reading the record raises.",
  "all record types, values and truncation points",
  "every truncation point of every record.",
  [R+"BinaryReader.ReadVarBytes", R+"BinaryReader.ReadFixedString", R+"BinaryReader.unpack", R+"BinaryReader.ReadHashes"])
p("Truncated strings and lengths are refused",
  "If a stream ends after at least one byte but strictly inside what WriteVarString or WriteVarInt wrote, ReadVarString resp. ReadVarInt raises.",
  "all strings and numbers, all truncation points after the first byte",
  "every truncation point of every string.",
  [R+"BinaryReader.ReadVarString", R+"BinaryReader.ReadVarInt"])
p("Reading then writing gives the same bytes",
  "Whatever bytes a reader method accepted for a value, the matching writer method writes that value as the same bytes, so the encoding of each value is unique (no malleability).",
  "all byte strings accepted by ReadVarInt, ReadBool and the fixed-width reads",
  "arbitrary streams from untrusted peers.",
  [R+"BinaryReader.ReadVarInt", R+"BinaryReader.ReadBool", W+"BinaryWriter.WriteVarInt", W+"BinaryWriter.WriteBool"])
p("Encodings of records are uniquely decodable",
  "For any two records of one type (any nesting of fields and arrays, raw hash contents that are not ASCII hex text), if the encoding of one is a prefix of the encoding of the other then the records are equal.",
  "all record types, all pairs of values",
  "unbounded nesting and lengths.",
  [W+"BinaryWriter", R+"BinaryReader"])
p("Records without raw hashes survive serialisation",
  "Every record made of fixed-width integers, variable-length integers up to sys.maxsize, byte strings, strings, bools, chars, doubles, Fixed8 amounts and arrays of such records, nested in any way, is read back exactly by the same sequence of methods, which ends where the writing ended; no other record of the type has an encoding that begins with its encoding or that its encoding begins with.",
  "all record types and values, no bound on nesting or length",
  "unbounded nesting and lengths.",
  [W+"BinaryWriter", R+"BinaryReader"])
p("A signature cannot be changed into another one",
  "If VerifySignature accepts a 64-byte signature of a message under a key, it accepts no other signature with the same first 32 bytes (r) for that message and key.",
  "all messages, keys, and pairs of 64-byte signatures with one r",
  "Ranges over all accepted signatures; needs the group law.",
  [C+"VerifySignature"])
p("The form of a message does not matter",
  "VerifySignature gives the same answer for a message given as hexadecimal text (str, bytes or bytearray, digits in any case) with unhex=True and as raw bytes with unhex=False, and for a str and its UTF-8 bytes with unhex=False; Sign gives the same signature for all hexadecimal forms of a message, and raises for every message that is not hexadecimal.",
  "all messages in all forms, signatures, keys, process states",
  "An equality of two programs on all inputs.",
  [C+"VerifySignature", C+"Sign"])
p("Nonces are not reused",
  "Sign is deterministic, and two calls of Sign with different messages or different private keys use the same nonce only if two different strings hashed in the process have the same SHA-256 hash. (A reused nonce gives the private key away, C100.)",
  "all pairs of messages and of 32-byte private keys",
  "Reduction to a hash collision; nothing a test could sample.",
  [C+"Sign"])
p("Different private keys have different addresses",
  "If two different 32-byte private keys gave key pairs with the same address, their two scripts (21, compressed key, ac) would be different and have the same RIPEMD-160 of SHA-256: a hash collision.",
  "all pairs of private keys, all hash functions",
  "Reduction to a hash collision over all pairs of keys; needs injectivity of key derivation, point encoding and Base58Check.",
  [K+"KeyPair", K+"KeyPair.GetAddress", C+"Crypto.ToAddress"])
p("Every WIF that imports is a usable wallet",
  "If PrivateKeyFromWIF(w) returns a key k, then KeyPair(k) succeeds and its GetAddress() returns an address.",
  "all texts accepted by PrivateKeyFromWIF",
  "Exceptional keys (0, and numbers from the group order on) are one in 2^32 of all keys or fewer; random tests never meet them.",
  [K+"KeyPair.PrivateKeyFromWIF", K+"KeyPair", K+"KeyPair.GetAddress"])
p("Canonically equivalent passphrases are interchangeable",
  "Two passphrases with the same Unicode normal form NFC behave alike: ExportNEP2 gives the same result (or raises) for both, and PrivateKeyFromNEP2 gives the same result (or raises) for both.",
  "all pairs of passphrases with one normal form, all keys and texts",
  "All pairs of equivalent texts.",
  [K+"KeyPair.ExportNEP2", K+"KeyPair.PrivateKeyFromNEP2"])
p("A wrong passphrase is noticed up to the four bytes stored",
  "If a NEP-2 text exported from a wallet is opened with any other passphrase and PrivateKeyFromNEP2 returns a key, this is a valid private key whose address agrees with the exported wallet's in the first four bytes of the double SHA-256.",
  "all wallets, all pairs of passphrases",
  "The interesting cases have probability 2^-32; the claim is about each of them.",
  [K+"KeyPair.PrivateKeyFromNEP2", K+"KeyPair.ExportNEP2"])
p("A key pair's public key belongs to its private key",
  "For every KeyPair that can be constructed, PublicKey is PrivateKey (as a number) times the base point.",
  "all byte strings KeyPair accepts (32, 96 and 104 bytes)",
  "All keys, and all embedded public keys.",
  [K+"KeyPair"])
p("Wallet operations do not depend on what the process did before",
  "KeyPair(k), Export(), PrivateKeyFromNEP2 and the CLI's create_wallet return the same value, or raise the same exception, in every state of the process: whatever curve was set in the bitcoin package, and whether or not Crypto was used.",
  "all keys, texts, passphrases, and all pairs of process states",
  "All histories of a process.",
  [K+"KeyPair", K+"KeyPair.Export", K+"KeyPair.PrivateKeyFromNEP2", L+"create_wallet"])
p("Exporting a wallet as WIF and importing it gives the same wallet",
  "For every KeyPair, KeyPair(PrivateKeyFromWIF(Export())) has the same private key, public key and public key hash.",
  "all byte strings KeyPair accepts, all process states",
  "All keys; the failing ones need an embedded public key of another private key.",
  [K+"KeyPair.Export", K+"KeyPair.PrivateKeyFromWIF", K+"KeyPair"])
p("Floor, Ceil and int() of any amount are next to the exact ones",
  "For every 64-bit amount v (in satoshis): Floor is a whole number of units above v-1 unit and at most 763 satoshis above v; Ceil mirrors it (Ceil(-v) = -Floor(v)); ToInt lies between v and 0 up to 763 satoshis and is less than a unit from v; whole amounts are exact; and all three are monotone.",
  "all amounts of absolute value up to 2^63",
  "2^64 amounts; the rounding errors of the float division lie far from what tests sample.",
  [F+"Fixed8.Floor", F+"Fixed8.Ceil", F+"Fixed8.ToInt"])
p("Division of amounts: error bound and monotonicity",
  "For every 64-bit amount a and every nonzero b, a / b (as implemented, on the raw satoshis) is less than 1 + 1024/|b| satoshis from the quotient of the raw values; it is monotone in a for b > 0 and odd in each argument.",
  "all amounts of absolute value up to 2^63 and all nonzero divisors of any size",
  "All pairs of amounts.",
  [F+"Fixed8.__truediv__"])
p("BigInteger arithmetic stays in BigInteger",
  "Every unary operator (-x, +x, ~x, abs) of a BigInteger, divmod, and every arithmetic, shift, power or bitwise operator between a BigInteger and an int, a bool or a BigInteger, on whichever side it stands, gives a BigInteger with the value of the same operator on the plain ints (floor division for /), or raises the same exception.",
  "all operators, all pairs of operands with a BigInteger among them",
  "All pairs of integers of any size.",
  [B+"BigInteger"])
p("BigInteger.Equals is equality",
  "a.Equals(b) is true for a BigInteger a if and only if b is an integer with the same value.",
  "all BigIntegers and all objects",
  "All pairs.",
  [B+"BigInteger.Equals"])
p("Comparing with == never raises",
  "x == y returns a bool for all objects x and y (None, ints, texts, byte strings, UInts, Fixed8 amounts, points), the same as y == x, and False for objects of different classes that have no common notion of value.",
  "all pairs of objects",
  "All pairs of objects of all classes.",
  [F+"Fixed8.__eq__", E+"ECPoint.__eq__", U+"UIntBase.__eq__"])
p("FromDecimal of any float",
  "FromDecimal(x) of a float x is less than 1 + 2^-53 * |x*10^8| satoshis from x*10^8, exact if x*10^8 is a whole number up to 2^53, monotone and odd; it raises only for nan (ValueError), infinities and x*10^8 beyond the floats (OverflowError).",
  "all floats",
  "2^64 floats; the rounding of the product is what matters.",
  [F+"Fixed8.FromDecimal"])
p("Merkle branches prove membership",
  "In a tree made of a list of hashes, the Parent links lead from every leaf to the root in Depth-1 steps, and hashing the leaf's hash with its siblings' on the way gives the root hash. Conversely a branch of that many steps from any hash to the root hash proves that the hash is in the list (and, if the sides are those of position i, that it is the i-th), unless two different strings with the same hash have been found.",
  "all lists of hashes, all positions, all branches, any hash function of fixed output length",
  "All lists and all candidate branches; the converse is a reduction to a hash collision.",
  [M+"MerkleTree", M+"MerkleTreeNode"])
p("The root of a concatenation is the hash of the roots",
  "If xs has 2^k hashes and ys more than 2^(k-1) and at most 2^k, ComputeRoot(xs + ys) is the hash of ComputeRoot(xs) followed by ComputeRoot(ys).",
  "all lists of these lengths, any hash function",
  "All lengths.",
  [M+"MerkleTree.ComputeRoot"])
p("GCD and modinv return for all integers",
  "GCD(a, b) and modinv(x, m) return a result for all integers, without exhausting the recursion limit of the interpreter.",
  "all integers of any size, every recursion limit",
  "The depth grows with the operands; the worst cases are Fibonacci numbers no test would try.",
  [E+"GCD", E+"modinv"])
p("TryParse reads back the text of an amount",
  "Writing an amount with ToString (str) or ToNeoJsonString and reading the text back with TryParse gives the amount that was written; with require_positive the text of a negative amount gives None.",
  "every 64-bit amount, both texts, with and without require_positive",
  "whether the float detour of both conversions loses a satoshi depends on the individual amount among 2^64; samples miss the amounts that lose one",
  [F + "ToString", F + "ToNeoJsonString", F + "TryParse"])
p("FromDecimal reads back the text of an amount through Decimal",
  "For amounts below 2^26 units, FromDecimal(Decimal(text)) of the text ToString (or ToNeoJsonString) gives for an amount is exactly that amount.",
  "every amount of magnitude below 67108864 units, both texts",
  "every one of 10^16 amounts must be the shortest decimal of its nearest float",
  [F + "ToString", F + "ToNeoJsonString", F + "FromDecimal"])
p("Threads that have set the curve do not disturb each other",
  "In a process with several threads, every call that sets the curve itself (KeyPair, SetupSignatureCurve, Crypto.Default, Export, create_wallet, PrivateKeyFromNEP2), and every Sign or VerifySignature in a thread that has made such a call before, other than PrivateKeyFromNEP2 which may raise before setting it (or in any thread, if the curve was set before the threads started), returns or raises exactly what it does in a process with one thread; and every call of a thread that keeps being scheduled ends.",
  "any number of threads, any sequences of calls with any arguments, every interleaving of the accesses to the shared module variables",
  "The interleavings of two threads alone are unbounded in number, and a race shows in almost no run of a test.",
  [C+"Crypto.SetupSignatureCurve", C+"Crypto.Default", C+"Crypto.Sign", C+"Crypto.VerifySignature", K+"KeyPair.__init__", K+"KeyPair.Export", K+"KeyPair.PrivateKeyFromNEP2"])
p("A signature uses the parameters of one curve in every interleaving",
  "However the threads of a process are scheduled, each Sign or VerifySignature computes with the parameters of one curve, never with some parameters of one curve and the rest of another.",
  "any number of threads, any sequences of calls, every interleaving",
  "The window is a few bytecode instructions wide; no test can enumerate the schedules.",
  [C+"Crypto.SetupSignatureCurve", C+"Crypto.Sign", C+"Crypto.VerifySignature", K+"KeyPair.__init__"])
p("What a writer writes does not depend on where it writes",
  "Any program that only calls BinaryWriter methods, whichever it calls depending on what it has been returned, writes the same bytes, returns the same values and raises the same errors on every stream at every position; the bytes replace those at the position, everything else stays. So a record can be patched in place by one of the same size.",
  "all programs over the writer methods, all arguments, all stream contents and positions",
  "Programs, contents and positions are unbounded.",
  [W+"BinaryWriter"])
p("What a reader returns depends only on the bytes it passes over",
  "Any program that only calls BinaryReader methods returns the same, and moves by the same number of bytes, on every two streams that agree from the position on, whatever precedes it; and if it stopped before the end, whatever follows the bytes it passed over.",
  "all programs over the reader methods, all stream contents and positions",
  "Programs, contents and positions are unbounded.",
  [R+"BinaryReader"])
p("A write that raises writes nothing",
  "A BinaryWriter call that raises leaves the stream as it was.",
  "all writer methods, all arguments of any type, all streams",
  "All arguments of all types and all stream states.",
  [W+"BinaryWriter.WriteVarInt", W+"BinaryWriter.WriteVarBytes", W+"BinaryWriter.WriteHashes", W+"BinaryWriter.Write2000256List", W+"BinaryWriter.WriteVarString"])
p("A read that raises can be repeated",
  "A BinaryReader call that raises leaves the position of the stream where it was, so that it can be repeated when more data has arrived.",
  "all reader methods, all streams and positions",
  "All contents and positions.",
  [R+"BinaryReader.unpack", R+"BinaryReader.SafeReadBytes", R+"BinaryReader.ReadVarInt", R+"BinaryReader.ReadUInt160", R+"BinaryReader.ReadUInt256"])
p("WriteVarString writes text in any encoding",
  "WriteVarString(text, encoding) writes the length of the encoded text followed by the encoded text, which ReadVarString returns; WriteVarString(data, encoding) of bytes writes them as they are; a text the encoding cannot express raises and writes nothing.",
  "all encodings, all texts and byte strings",
  "All texts and encodings.",
  [W+"BinaryWriter.WriteVarString", R+"BinaryReader.ReadVarString"])
p("ReadHashes returns no hash the stream does not hold",
  "ReadHashes returns as many hashes as announced, each made of its own 32 bytes of the stream, or raises if the stream ends before.",
  "all streams and positions",
  "All contents, announced counts and lengths.",
  [R+"BinaryReader.ReadHashes"])
p("A signature narrows its signer down to at most four public keys",
  "For every message and signature there are at most four public keys under which VerifySignature accepts; at most two unless r is so small that r + n is below the prime of the field. Not fewer: with every key that accepts there is a second one, which accepts too if it is a finite point with coordinates below n.",
  "all messages, signatures and public keys",
  "All keys and signatures; the other keys have to be computed, no sample contains them.",
  [C+"Crypto.VerifySignature"])
p("A dictionary with UInt keys is a map from contents to values",
  "After any history of creating UInt160/UInt256 objects, storing values under them and removing them, a look-up with any object returns the value stored last under an object of the same contents, however that was made, or nothing if it has been removed or never stored; and there is one entry per contents.",
  "all histories of any length that do not change the contents of keys while they are in the dictionary",
  "Histories are unbounded and __eq__ and __hash__ have to agree in every state.",
  [U+"UIntBase.__eq__", U+"UIntBase.__hash__", U+"UIntBase.__init__", U+"UIntBase.Deserialize"])
p("Fixed8 amounts behave as values",
  "In every program of assignments to variables holding Fixed8 amounts - new amounts, copies x = y, operators x = y + z, in-place operators x += y (also -=, *=, /=, //=, %=), negation, Ceil and Floor - every variable shows at the end the amount it would have if variables held plain numbers: a running total never changes the amount it started from, and an assignment that raises changes nothing.",
  "all programs of any length, all amounts, all ways of sharing objects between variables",
  "Programs and the sharing between variables are unbounded.",
  [F+"Fixed8.__init__", F+"Fixed8.__iadd__", F+"Fixed8.__isub__", F+"Fixed8.__imul__", F+"Fixed8.__itruediv__", F+"Fixed8.__imod__", F+"Fixed8.__floordiv__", F+"Fixed8.__neg__"])
p("Powers of amounts are amounts",
  "a ** b of Fixed8 amounts is an amount (a whole number of satoshis): the power of the raw values for b >= 0, its remainder on the side of the modulus if one is given; where that does not exist it raises.",
  "all amounts, exponents and moduli",
  "All pairs and triples of integers.",
  [F+"Fixed8.__pow__"])
p("What a reader returns is no larger than the data it passes over",
  "The result of a BinaryReader call holds at most as many bytes (two characters of hexadecimal text per byte) and, for ReadHashes and ReadSerializableArray, at most as many items as the bytes the call passed over, so that a short message cannot make a node allocate a large amount of memory.",
  "all streams and positions, all methods and arguments, all classes of items",
  "The count announced in a stream and the size of a stream are unbounded; tests use complete messages.",
  [R + "BinaryReader.ReadHashes", R + "BinaryReader.ReadSerializableArray", R + "BinaryReader.ReadVarBytes", R + "BinaryReader.Read2000256List"])

p("A NEP-2 text that imports is the one the wallet exports",
  "If PrivateKeyFromNEP2(s, p) returns k for a well-formed NEP-2 text s (header 0142e0) and p has at least two characters, KeyPair(k).ExportNEP2(p) returns s; and conversely for every 32-byte key. So no two well-formed texts import to one key under one passphrase.",
  "all texts, passphrases, keys and states of the process; all choices of the hash functions, scrypt and AES",
  "It needs that AES decryption is one to one on all blocks and that nothing else of the text is ignored; tests try a few exported texts.",
  [K + "KeyPair.PrivateKeyFromNEP2", K + "KeyPair.ExportNEP2", H + "xor_bytes"])
p("random_key does not lose the randomness it draws",
  "Two calls of random_key that drew different bytes from os.urandom return different keys, unless SHA-256 of two different strings is the same; so do two calls with the same bytes that differ in exactly one of random number and time.",
  "all byte strings, random numbers and times drawn",
  "The key is a hash of a concatenation of texts; that the texts can be told apart is a statement about all byte strings.",
  [H + "random_key"])

p("Any sequence of Trim calls leaves the whole tree or the root alone",
  "After any sequence of Trim calls on a constructed tree, none of which raises, the root, its hash and Depth are the same; if some call's flags begin with two zeros (missing flags are zeros) only the root is left and ToHashArray returns its hash alone, otherwise the tree is as constructed.",
  "all nonempty lists of hashes, all sequences of flags",
  "Trees and call sequences are unbounded, and Trim mutates shared nodes; tests trim one small tree once.",
  [M + "MerkleTree.Trim", M + "MerkleTree.ToHashArray"])

p("Negation and the identity elements of a field",
  "For every value v of a FiniteField with positive modulus, -v is a value of the same field, v + -v and -v + v are the field's zero(), whose iszero() is true, -(-v) holds the integer of v, v - w is the same value as v + -w for every w of that field, and v plus zero() or times one(), on either side, is the reduced value of v.",
  "all moduli, all values, reduced or not",
  "Moduli and values are unbounded; tests negate a few values.",
  [E + "FiniteField.neg", E + "FiniteField.zero", E + "FiniteField.one"])

p("Sorting hashes gives one ascending list",
  "sorted() of a list of UInt160 (or UInt256) values returns them in ascending order of their little-endian numbers, and the same list for every order of the input.",
  "all lists of values of one kind, all orders of each list, every stable sorting algorithm",
  "Lists and their permutations are unbounded and the claim concerns all sorting algorithms; tests sort one short list.",
  [U + "UIntBase.__lt__", U + "UIntBase.CompareTo"])

p("Sorting public keys gives the same list for every order of the input",
  "sorted() of a list of points of secp256r1 returns the same list for every order of the input (so that all parties build the same multi-signature contract from the same keys).",
  "all lists of reduced points, all orders of each list, every stable sorting algorithm",
  "Lists and their permutations are unbounded; tests compare two keys.",
  [E + "EllipticCurve.ECPoint.__lt__"])

p("Merkle trees are built, listed and trimmed within the recursion limit",
  "A tree of n >= 1 hashes is built with ceil(log2 n) + 1 nested calls and not with fewer; ToHashArray takes exactly as many and Trim no more. So no list that fits in memory reaches CPython's recursion limit of 1000.",
  "all non-empty lists of hashes, all flags, all recursion limits, every hash function",
  "The number of hashes is unbounded; a test builds a few trees of a few leaves.",
  [M + "MerkleTree.__Build", M + "MerkleTree.__DepthFirstSearch", M + "MerkleTree._TrimNode"])

p("Methods of a field value do what the functions of that name do",
  "v.sqrt(flag), v.inverse() and v.sqrtCQ(q) return what FiniteField.sqrt, modinv and sqrtCQ return for the integer of v.",
  "all field values, flags and moduli",
  "All values and moduli; no test calls the methods.",
  [E + "FiniteField.Value.sqrt", E + "FiniteField.Value.sqrtCQ", E + "FiniteField.Value.inverse"])

p("Objects that can be compared can be hashed, equal ones alike",
  "hash(x) returns for every BigInteger, UInt, Fixed8 and ECPoint, and x == y implies hash(x) == hash(y), also between a BigInteger and an int or bool; so they can be members of sets and keys of dictionaries.",
  "all objects of these classes and of the built-in ones, all pairs, every hash seed",
  "All values and all pairs of classes; tests hash one UInt.",
  ["neocore/Fixed8.py:Fixed8.__eq__", E + "EllipticCurve.ECPoint.__eq__", "neocore/UIntBase.py:UIntBase.__hash__", "neocore/BigInteger.py:BigInteger"])

p("An amount does not depend on the class of the integer it is made from",
  "Fixed8(BigInteger(v)) behaves like Fixed8(v): every operator, Ceil, Floor, ToInt and the text give the same amounts, whichever of the operands are made from BigIntegers.",
  "all integers, all pairs of operands, ints, bools and BigIntegers",
  "All amounts and all mixtures of classes; the tests make amounts from ints only.",
  [F + "Fixed8.Ceil", F + "Fixed8.ToInt", F + "Fixed8.ToString", F + "Fixed8.__truediv__", "neocore/BigInteger.py:BigInteger.__truediv__"])

p("TryParse and FromDecimal agree on numbers",
  "For every int, float and Decimal x, TryParse(x) is the amount FromDecimal(x) is, or both raise.",
  "all ints, floats (nan and infinities included) and Decimals",
  "All numbers; the two functions take different routes through floats.",
  [F + "Fixed8.TryParse", F + "Fixed8.FromDecimal"])

p("ReadSerializableArray reads the class its name says, and touches nothing for an unknown one",
  "ReadSerializableArray('module.Class') reads the array with the attribute Class of that absolute module; for every other name (no point, a relative or empty module, an unknown module or attribute) it raises before anything is read from the stream.",
  "all names, all sets of importable modules, all streams and positions",
  "All texts as names; the tests know one class.",
  [R + "BinaryReader.ReadSerializableArray"])

p("Multiplying a point by n takes as many doublings as n has bits",
  "P * n always ends, and the number of rounds of its loop (one doubling, hence one modular inversion, each) is at most the number of bits of n.",
  "all curves, all points, all integers below 2^1025 - 2^971 (above, P * n raises OverflowError: C64)",
  "A cost bound over all scalars; tests look at results only.",
  [E + "EllipticCurve.mul", E + "EllipticCurve.ECPoint.__mul__"])

p("A Merkle root takes about one hash per leaf",
  "ComputeRoot of n hashes calls Hash256 at least n - 1 times and fewer than n + ceil(log2 n) times.",
  "all non-empty lists of hashes, any hash function",
  "A cost bound for every length; tests look at roots of a few short lists.",
  [M + "MerkleTree.ComputeRoot", M + "MerkleTree.__Build"])

p("Text that has no UTF-8 form is refused before anything is written",
  "WriteByte, WriteVarString and WriteFixedString of a text with a lone surrogate raise UnicodeEncodeError and leave the stream as it is; every other text is written as its UTF-8 bytes.",
  "all sequences of code points, all streams, all lengths",
  "Any of 2048 code points anywhere in a text; tests use ASCII.",
  [W + "BinaryWriter.WriteByte", W + "BinaryWriter.WriteVarString", W + "BinaryWriter.WriteFixedString"])

p("FromDecimal of a Decimal with at most 8 decimals is exact whatever its length",
  "FromDecimal(Decimal) of a Decimal that denotes a whole number v of satoshis is the amount v, however many digits it has.",
  "all finite Decimals with at most 8 decimals",
  "Every coefficient and exponent; the loss starts at the 29th significant digit.",
  [F + "Fixed8.FromDecimal"])

p("Options of np-utils combine",
  "np-utils with several options prints and does what one call per option would, in the order --address-to-scripthash, --scripthash-to-address, --create-wallet, up to the first that does not end normally, and ends as that one does; without an option it prints nothing on standard output and exits with status 1.",
  "all combinations of the three options, all arguments, all random draws",
  "Every pair of argument texts, valid or not; tests run one option at a time.",
  [L + "main"])

p("A signature is accepted for one message only",
  "Under one public key VerifySignature accepts a given signature only for messages that have one and the same SHA-256 digest (mod the group order).",
  "all keys (made by anyone), all signatures, all messages",
  "Keys and signatures made for the purpose; a random pair of messages never shows it.",
  [C + "Crypto.VerifySignature"])

p("The form of the public key does not matter for verification",
  "VerifySignature gives the same answer for a public key whether it is passed as a point, as the 64 bytes of its coordinates or as its 33-byte encoding, whatever message and signature are (the 33-byte form while the curve parameters of the bitcoin package are those of secp256r1).",
  "all public keys, messages and signatures, valid or not",
  "2^256 keys; the 33-byte form goes through a square root whose sign must come out right.",
  [C + "Crypto.VerifySignature"])

p("A Merkle tree's root stays the root of its hashes",
  "At any time after a MerkleTree was built, the hash of its root equals ComputeRoot of the present contents of the hash objects it was built from, whatever has been done to those objects (Deserialize, changing the array ToArray returned) in between.",
  "all lists of hash objects, all later programs",
  "Histories of changes to shared objects; a test reads the root right after building.",
  [M + "MerkleTree.__init__", M + "MerkleTree.__Build", M + "MerkleTree.ComputeRoot", U + "UIntBase.Deserialize", U + "UIntBase.ToArray"])

p("Lengths written in either byte order are read back",
  "WriteVarInt(v, endian) and WriteVarBytes(b, endian) document both byte orders; in either, ReadVarInt returns v and ReadVarBytes returns b, and each moves exactly past what was written.",
  "all values below 2^64, all byte strings, both byte orders, whatever precedes and follows",
  "The one-byte form does not show the byte order; only values from 0xfd on do, and a test that reads to the end of the stream does not notice a length that is too large.",
  [W + "BinaryWriter.WriteVarInt", W + "BinaryWriter.WriteVarBytes", R + "BinaryReader.ReadVarInt", R + "BinaryReader.ReadVarBytes"])

p("encode_point puts coordinates in the byte order it is asked for",
  "P.encode_point(compressed, endian) holds the coordinates of P in the byte order that endian names ('little' or 'big'), and decode_from_hex of the result is P.",
  "all finite points of secp256r1 with reduced coordinates, both forms, both byte orders",
  "Two wrong reversals cancel for the default; the other order is used by no test.",
  [E + "EllipticCurve.ECPoint.encode_point", E + "EllipticCurve.decode_from_hex"])

p("Floats and doubles are IEEE-754 words on the stream",
  "Four bytes are read by ReadFloat (eight by ReadDouble) as the IEEE-754 binary32 (binary64) word they are: sign bit, 8 (11) bits of exponent with bias 127 (1023), 23 (52) bits of fraction; least significant byte first, which is the default, or last with '>'. WriteFloat (WriteDouble) of that number writes those bytes.",
  "all words that are no NaN for writing, all words for reading, both byte orders and the default",
  "A reader and a writer that agree on another layout, or on another default byte order, pass every round trip test.",
  [W + "BinaryWriter.WriteFloat", W + "BinaryWriter.WriteDouble", R + "BinaryReader.ReadFloat", R + "BinaryReader.ReadDouble"])

p("WriteByte writes a single byte",
  "WriteByte(value), documented to write a single byte given as bytes, str or int, either appends exactly one byte or raises and writes nothing.",
  "all arguments: bytes, texts, ints, subclasses of int and other objects",
  "All types and lengths of the argument; a silent success cannot be seen from the return value.",
  [W + "BinaryWriter.WriteByte"])

p("NEP-2 export and import follow the NEP-2 standard",
  "For every valid private key k, ExportNEP2(passphrase) of KeyPair(k) is the text NEP-2 prescribes: Base58Check of 01 42 e0, h, AES-256-ECB under d[32:] of k XOR d[:32], with h the first 4 bytes of the double SHA-256 of the address text and d = scrypt(NFC(passphrase) as UTF-8, h, N=16384, r=8, p=8, 64 bytes); and PrivateKeyFromNEP2 of that text, whoever made it, returns k.",
  "all private keys, all passphrases (of at least two characters for the export), all histories of the process",
  "A test has a few vectors; an export and an import that agree on something else pass every round trip.",
  [K + "KeyPair.ExportNEP2", K + "KeyPair.PrivateKeyFromNEP2"])

p("Lengths, strings, arrays, amounts and public keys have the protocol's layout",
  "WriteVarInt writes the variable-length integer of the NEO protocol (the number itself below 0xfd, else 0xfd, 0xfe or 0xff and 2, 4 or 8 bytes, the first that fits, least significant first); WriteVarBytes and WriteVarString write the length in bytes and the (UTF-8) bytes; WriteSerializableArray the number of items and what they write, in order (None as the empty array); WriteFixed8 eight bytes of two's complement; ECPoint.Serialize the compressed form of the point, or one zero byte for infinity.",
  "all numbers below 2^64, byte strings, texts, item types and lists, 64-bit amounts, points of secp256r1",
  "A reader and a writer that agree on another layout pass every round trip; the classes of lengths from 0xfd, 0x10000 and 2^32 are not reached by tests.",
  [W + "BinaryWriter.WriteVarInt", W + "BinaryWriter.WriteVarBytes", W + "BinaryWriter.WriteVarString", W + "BinaryWriter.WriteSerializableArray", W + "BinaryWriter.WriteFixed8", E + "EllipticCurve.ECPoint.Serialize"])

p("Size is the number of bytes Serialize writes",
  "For an amount, a UInt160/UInt256 and an ECPoint, Size is the number of bytes that WriteFixed8 and Serialize write for it, whatever the options of Serialize.",
  "all amounts, all contents of a UInt, all points of secp256r1, compress True and False",
  "The sizes are constants; the contents for which a writer writes another number of bytes are rare among samples.",
  [F + "Fixed8.Size", "neocore/UIntBase.py:UIntBase.Size", "neocore/UIntBase.py:UIntBase.Serialize", E + "EllipticCurve.ECPoint.Size", E + "EllipticCurve.ECPoint.Serialize"])

p("Text forms of a UInt",
  "ToString() and str() of a UInt160/UInt256 are two lower-case hexadecimal digits per byte, and denote the number with those bytes, least significant first; To0xString is 0x and that; ToBytes is that in ASCII; ToString2 denotes the number with the same bytes most significant first. Each form determines the contents.",
  "all contents",
  "All contents, among them those with leading and trailing zero bytes and digits above 9.",
  ["neocore/UIntBase.py:UIntBase.ToString", "neocore/UIntBase.py:UIntBase.ToString2", "neocore/UIntBase.py:UIntBase.To0xString", "neocore/UIntBase.py:UIntBase.ToBytes", "neocore/UIntBase.py:UIntBase.__str__"])

p("The named amounts",
  "Fixed8.Zero() changes no sum; Satoshi() is the least amount above it and NegativeSatoshi() the greatest below it, and the two cancel; One() is 100,000,000 satoshis, FD() is the same, and FromDecimal(n) is n times One() for every int n.",
  "all amounts, all ints",
  "\"Least above\" ranges over all amounts.",
  [F + "Fixed8.Zero", F + "Fixed8.Satoshi", F + "Fixed8.NegativeSatoshi", F + "Fixed8.One", F + "Fixed8.FD"])

p("The named curves have the parameters of SEC 2",
  "ECDSA.secp256r1() and ECDSA.secp256k1() have the field, coefficients and base point of the curves of that name in SEC 2; field size and order are prime, the curve is not singular, and the base point has exactly the prescribed order; Crypto.SetupSignatureCurve and KeyPair configure the bitcoin package with the parameters of secp256r1.",
  "the two curves and the two configurations; the order of the base point ranges over all its multiples",
  "That a 256-bit number is prime and that no smaller multiple of the base point is the point at infinity cannot be tested by running through cases.",
  [E + "ECDSA.secp256r1", E + "ECDSA.secp256k1", C + "Crypto.SetupSignatureCurve", K + "KeyPair.__init__"])

p("Keys and signatures on secp256k1",
  "On ECDSA.secp256k1(), calcpub(n) is n times the base point for every private key n; verify accepts every signature that sign returns, with the public key calcpub returns.",
  "all private keys, messages and nonces in [1, order)",
  "2^256 keys and nonces; a handful of vectors says nothing about the rest.",
  [E + "ECDSA.secp256k1", E + "ECDSA.calcpub", E + "ECDSA.sign", E + "ECDSA.verify"])

p("Equal sums of points are identical",
  "Sums and multiples of points whose coordinates are in [0, p) have coordinates in [0, p), as have negatives of points with y other than 0; so two results that are the same point of the curve have the same coordinates and encodings: P + Q and Q + P, (P + Q) + R and P + (Q + R).",
  "all curves over prime fields, all points with reduced coordinates, all scalars",
  "All curves and points; an unreduced coordinate is equal (==) to the reduced one and only shows in encodings.",
  [E + "EllipticCurve.add", E + "EllipticCurve.mul", E + "EllipticCurve.neg"])

p("The texts TryParse accepts",
  "Fixed8.TryParse(text) returns None exactly for the texts that are not numbers by the grammar of Python's float() (blanks around it, a sign, digits with an optional point and exponent, or inf, infinity, nan; underscores between digits from Python 3.6 on), and with require_positive for negative ones; it raises ValueError for nan and OverflowError for infinity and numbers too large; otherwise it returns the number in satoshis, cut off after float rounding, so within one satoshi and a relative error of 2^-51.",
  "all texts, both values of require_positive, Python with and without underscores in numbers",
  "Infinitely many texts; a parser that accepts or misreads one more form is not met by examples.",
  [F + "Fixed8.TryParse"])

p("ToScriptHash hashes the bytes its text stands for",
  "Crypto.ToScriptHash(data) returns the hash160 of the bytes that data, a hexadecimal text, stands for, and raises binascii.Error for everything that is not hexadecimal text with an even number of digits; ToScriptHash(data, unhex=False) returns the hash160 of data itself.",
  "all byte strings, both values of unhex",
  "All byte strings; the examples in use are long scripts, the exceptions are very short ones.",
  [C + "Crypto.ToScriptHash", H + "bin_hash160"])

p("An address is valid exactly if it was made from 20 bytes",
  "isValidPublicAddress accepts what scripthash_to_address (and Crypto.ToAddress) returns for a byte string exactly if that byte string has 20 bytes.",
  "all byte strings of all lengths",
  "All byte strings; that no other length ever leads to 34 characters, a leading 'A' and the right checksum takes an argument about all of them.",
  [H + "scripthash_to_address", C + "Crypto.ToAddress", "neocore/Utils.py:isValidPublicAddress"])

p("The redeem script of a public key pushes that key",
  "pubkey_to_redeem(text) of the hexadecimal text of a public key is the script that pushes the key and checks a signature (opcode with the length of the key, the key, CHECKSIG), and pubkey_to_pubhash its hash160; both raise for everything else.",
  "all byte strings",
  "All byte strings of all lengths; the published vectors are compressed keys only.",
  [H + "pubkey_to_redeem", H + "pubkey_to_pubhash"])

p("Sign gives the same signature for every form of a private key",
  "Crypto.Sign returns the same 64 bytes for a private key given as 32 bytes, as 64 hexadecimal digits of either case (text or ASCII bytes), with a compression mark behind, as a number, or as the WIF text that KeyPair.Export returns; it accepts all of these in every state of the process.",
  "all private keys, messages, nonce generators, forms and call histories",
  "All 2^256 keys in all their forms; tests sign with one hexadecimal key.",
  [C + "Crypto.Sign", "neocore/KeyPair.py:KeyPair.Export"])

p("Sign refuses what is not a private key",
  "Crypto.Sign raises for a private_key argument that is not a private key of secp256r1: a number outside 1..n-1, a text with characters that are no hexadecimal digits, half a key, or an object of another type.",
  "all private_key arguments, messages and call histories",
  "Every argument; a test can only try some mistyped keys.",
  [C + "Crypto.Sign"])

p("An array that ends early yields exactly its complete items",
  "If the data ends anywhere inside the items of an array written by WriteSerializableArray, ReadSerializableArray returns exactly the items that are complete, unchanged and in order, and nothing else.",
  "all item types, arrays of all lengths and all places where the data may end",
  "Every truncation point of arrays of every length and item type.",
  [R + "BinaryReader.ReadSerializableArray", W + "BinaryWriter.WriteSerializableArray"])

p("A log of records survives a crash of its writer",
  "If records are written one after another and the writer stops at any byte, reading the file record by record until a read raises gives exactly the records that were written completely, in order.",
  "all record types, logs of all lengths and all crash points",
  "Every crash point of logs of every length and record type.",
  [R + "BinaryReader", W + "BinaryWriter"])

p("Calls of threads that share a writer do not mix",
  "If several threads use one BinaryWriter, the stream and all results are those of performing the calls one after another, each as a whole, in some order that respects the order of each thread.",
  "all numbers of threads, programs and interleavings",
  "All interleavings of any number of threads; tests run one.",
  [W + "BinaryWriter.WriteVarInt", W + "BinaryWriter.WriteVarBytes", W + "BinaryWriter.WriteBytes"])

p("Threads that share a writer lose no bytes",
  "If several threads use one BinaryWriter, then whatever the interleaving and at whatever point it is stopped, what was written consists of the bytes of the threads, each once and unchanged: those of each thread are in their order a beginning of what it would have written alone, and all of that, with the same result, when the thread has ended; every thread that gets enough turns ends.",
  "all numbers of threads, programs, interleavings and points where they are stopped",
  "All interleavings of any number of threads; tests run one.",
  [W + "BinaryWriter"])

p("Threads that share a reader get each byte once",
  "If several threads use one BinaryReader, then whatever the interleaving and at whatever point it is stopped, every byte passed over was delivered to exactly one of the threads, in order; and a thread that has ended has exactly the result it has when it reads the bytes delivered to it alone, from a stream of its own.",
  "all numbers of threads, programs, interleavings and stream contents",
  "All interleavings of any number of threads; tests run one.",
  [R + "BinaryReader"])

p("Calls of threads that share a reader do not mix",
  "If several threads use one BinaryReader, all results and the position are those of performing the calls one after another, each as a whole, in some order that respects the order of each thread.",
  "all numbers of threads, programs, interleavings and stream contents",
  "All interleavings of any number of threads; tests run one.",
  [R + "BinaryReader.ReadVarInt", R + "BinaryReader.ReadVarBytes", R + "BinaryReader.ReadBytes"])

p("A failing read is reported",
  "If the stream of a BinaryReader raises in one of its reads (an I/O error, a closed file, a timeout), the call of the reader that made it raises this exception; no value is returned in its place.",
  "all reader calls, all streams and every read that may fail",
  "Every stream object and every point of failure.",
  [R + "BinaryReader.ReadByte", R + "BinaryReader.ReadVarInt", R + "BinaryReader.ReadSerializableArray", R + "BinaryReader.unpack"])

p("Short reads do not damage data",
  "If the stream of a BinaryReader delivers fewer bytes than it is asked for, as sockets, pipes and unbuffered files do, every call raises or returns what it returns from a stream that delivers them all.",
  "all reader calls and programs, all streams and all divisions of their content",
  "Every division of every content into parts.",
  [R + "BinaryReader.ReadBytes", R + "BinaryReader.ReadVarBytes", R + "BinaryReader.unpack", R + "BinaryReader.SafeReadBytes"])

p("A failing write is reported, and what was written is a beginning",
  "If the stream of a BinaryWriter raises in one of its writes, the call of the writer raises this exception and writes no more; the bytes the stream took before are a beginning of what would have been written, and all of it if no write raised.",
  "all writer calls and programs that pass exceptions on, arrays included, all streams and every write that may fail",
  "Every stream object and every point of failure.",
  [W + "BinaryWriter"])

p("Bytes the stream does not take are noticed",
  "If the stream of a BinaryWriter takes fewer bytes than it is given, as sockets, pipes and unbuffered files do, the call of the writer raises, writes the rest, or returns the number of bytes taken.",
  "all writer calls and streams",
  "Every stream object and every number of bytes it may take.",
  [W + "BinaryWriter.WriteBytes", W + "BinaryWriter.WriteVarBytes", W + "BinaryWriter.pack", W + "BinaryWriter.WriteUInt160"])

p("A writer and a reader on one stream work as a queue",
  "If a BinaryReader and a BinaryWriter are given the same stream, the writer destroys nothing that has not been read yet, and the reader reads what the writer wrote.",
  "all programs of reader and writer calls and all stream contents",
  "All interleavings of calls and all contents.",
  [R + "BinaryReader", W + "BinaryWriter"])

p("A stream shared by a reader and a writer is a tape",
  "Whatever a program does with a BinaryReader and a BinaryWriter on one stream, the position never moves backwards nor beyond the end; what lies before it changes no more, what lies after it has never been changed, the stream does not get shorter, and every reader call returns what it returns from the original stream at the same position.",
  "all programs of reader and writer calls, exceptions included, and all stream contents",
  "Unbounded histories of mixed calls.",
  [R + "BinaryReader", W + "BinaryWriter"])

p("Field values beside objects of other classes",
  "For a value v of a FiniteField and any object y, v == y and y == v return the same bool and never raise: True exactly if y is a number, or text or field value standing for one, that is congruent to v; and v can be hashed.",
  "all field values and all objects beside them",
  "All values of all fields and all objects of all classes.",
  [E+"FiniteField.Value.__eq__", E+"FiniteField.eq", E+"FiniteField.integer", F+"Fixed8.__eq__"])
p("sum adds up amounts and BigIntegers",
  "For every list of Fixed8 amounts sum(l) is the amount that is their exact total, the same for every order of the list; for every list of BigIntegers sum(l) is the BigInteger that is their total. The same holds for sum(l, start) with a start of the class.",
  "all lists of amounts or BigIntegers, of any length and order",
  "Lists of every length; the total of unbounded integers.",
  [F+"Fixed8.__add__", B+"BigInteger.__add__"])

p("max and min find the largest and the smallest",
  "For every nonempty list of amounts, of hashes of one kind, or of public keys, max(l) and min(l) are elements of the list that no other element exceeds (undercuts), hashes compared as numbers, and they do not depend on the order of the list; for an empty list they raise ValueError.",
  "all nonempty lists of amounts, hashes of one kind, public keys",
  "Lists of every length in every order.",
  [F+"Fixed8.__gt__", F+"Fixed8.__lt__", U+"UIntBase.CompareTo", E+"EllipticCurve.ECPoint.__gt__"])

p("Zero is false in a condition",
  "In a condition (if x, not x, bool(x)) an amount, a BigInteger, a hash, a field value or a point counts as false exactly if it is zero (Infinity).",
  "all amounts, BigIntegers, hashes, field values and points",
  "All values of unbounded types.",
  [F+"Fixed8", B+"BigInteger", U+"UIntBase", E+"FiniteField.Value", E+"EllipticCurve.ECPoint"])
p("ReadString reads what its length byte announces",
  "ReadString reads data of up to 255 bytes preceded by one byte with their number, and moves exactly past them; if the stream ends before, it raises struct.error. Data and texts of fewer than 253 bytes that WriteVarBytes and WriteVarString have written are read back by it.",
  "all byte strings of up to 255 bytes, all streams and positions, all texts",
  "lengths above 127 and 252 behave differently in a signed byte and in a variable-length integer; every point of truncation.",
  ["neocore/IO/BinaryReader.py:BinaryReader.ReadString", "neocore/IO/BinaryReader.py:BinaryReader.unpack", "neocore/IO/BinaryWriter.py:BinaryWriter.WriteVarString"])
p("Crypto.Default() signs and verifies on secp256r1 in every process",
  "Crypto.Default().Sign, .VerifySignature and .Hash256 give, after every history of library calls and in a fresh process too, what Crypto.Sign and Crypto.VerifySignature give in a process that only called SetupSignatureCurve, and SHA-256 applied twice. An instance fetched once keeps doing so whatever is called later. VerifySignature without unhex unhexlifies the message.",
  "all histories of library calls before and after the instance is fetched, all messages, keys and signatures",
  "the curve is process-wide state set as a side effect, and set by Default() only the first time it is called.",
  ["neocore/Cryptography/Crypto.py:Crypto.Default", "neocore/Cryptography/Crypto.py:CryptoInstance"])
p("Crypto.Default().Hash160 returns the text Crypto.Hash160 returns",
  "As both docstrings say, Crypto.Default().Hash160(m) is the hash RIPEMD-160(SHA-256(m)) as hexadecimal text, the same as Crypto.Hash160(m).",
  "all messages, all histories of library calls",
  "two entry points must agree on every message; a test samples a few.",
  ["neocore/Cryptography/Crypto.py:CryptoInstance.Hash160", "neocore/Cryptography/Crypto.py:Crypto.Hash160", "neocore/Cryptography/Crypto.py:Crypto.Hash160Bytes"])
# -- new properties go here --
with open(os.path.join(os.path.dirname(os.path.abspath(__file__)), "..", "properties.jsonl"), "w") as f:
    for x in P:
        f.write(json.dumps(x) + "\n")
print(len(P))
for x in P: print(x["id"], x["title"])
