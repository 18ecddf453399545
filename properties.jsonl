{"id": "C01", "title": "Fixed-width integers survive write/read", "statement": "For each of Int8/UInt8/Int16/UInt16/Int32/UInt32/Int64/UInt64 and each byte order, writing an in-range value and reading it back with the same method and byte order returns exactly that value, consumes exactly the width and leaves whatever follows untouched; an out-of-range value raises and writes nothing.", "quantifier": "all integers, all 8 widths/signs, both byte orders, all surrounding stream contents", "why_tests_cant": "2^64 values per width times every stream context; tests check one value per method.", "anchors": ["neocore/IO/BinaryWriter.py:BinaryWriter.WriteInt8..WriteUInt64", "neocore/IO/BinaryWriter.py:BinaryWriter.pack", "neocore/IO/BinaryReader.py:BinaryReader.ReadInt8..ReadUInt64", "neocore/IO/BinaryReader.py:BinaryReader.unpack"]}
{"id": "C02", "title": "Fixed-width wire layout", "statement": "The bytes a fixed-width write appends are exactly the two's complement base-256 digits of the value, least significant first for '<' (the default) and most significant first for '>'; so '<' and '>' outputs are reversals of one another and the number of bytes returned equals the width.", "quantifier": "all in-range integers of every width/sign, both byte orders", "why_tests_cant": "wire compatibility must hold for every value, tests compare a few literals.", "anchors": ["neocore/IO/BinaryWriter.py:BinaryWriter.WriteInt16", "neocore/IO/BinaryWriter.py:BinaryWriter.WriteUInt64", "neocore/IO/BinaryWriter.py:BinaryWriter.pack"]}
{"id": "C03", "title": "VarInt round trip", "statement": "WriteVarInt(v) followed by ReadVarInt(max) returns v and consumes exactly the bytes written, for every v below 2^64 with v <= max.", "quantifier": "all v in [0, 2^64), all max, all following bytes", "why_tests_cant": "boundaries (0xfc/0xfd, 0xffff/0x10000, 2^32, 2^63) multiply with max; tests use four values.", "anchors": ["neocore/IO/BinaryWriter.py:BinaryWriter.WriteVarInt", "neocore/IO/BinaryReader.py:BinaryReader.ReadVarInt"]}
{"id": "C04", "title": "VarInt encoding is shortest-form and prefix-free", "statement": "WriteVarInt uses 1 byte below 0xfd, 3 up to 0xffff, 5 up to 0xffffffff and 9 above; two different values never have encodings one of which is a prefix of the other.", "quantifier": "all pairs of values in [0, 2^64)", "why_tests_cant": "quantifies over pairs of values.", "anchors": ["neocore/IO/BinaryWriter.py:BinaryWriter.WriteVarInt"]}
{"id": "C05", "title": "VarInt rejects what it cannot encode without touching the stream", "statement": "WriteVarInt of a negative, of a non-integer or of a value of 2^64 or more raises and leaves the stream exactly as it was.", "quantifier": "all argument values and all prior stream states", "why_tests_cant": "failure atomicity must hold for every bad value and stream state.", "anchors": ["neocore/IO/BinaryWriter.py:BinaryWriter.WriteVarInt"]}
{"id": "C06", "title": "VarInt accepts integer subclasses", "statement": "WriteVarInt of any int (including BigInteger and bool, which pass its isinstance check) writes the same bytes as for the plain int of equal value.", "quantifier": "all values of all int subclasses", "why_tests_cant": "depends on the dynamic type of the argument for each size class; tests only use plain int.", "anchors": ["neocore/IO/BinaryWriter.py:BinaryWriter.WriteVarInt", "neocore/IO/BinaryWriter.py:BinaryWriter.WriteByte"]}
{"id": "C07", "title": "ReadVarInt never exceeds max", "statement": "Whatever bytes are on the stream, ReadVarInt(max) with max >= 0 either raises or returns a value between 0 and max; at end of stream it returns 0.", "quantifier": "all byte streams, all max", "why_tests_cant": "adversarial inputs cannot be enumerated.", "anchors": ["neocore/IO/BinaryReader.py:BinaryReader.ReadVarInt"]}
{"id": "C08", "title": "VarBytes round trip", "statement": "WriteVarBytes(b) then ReadVarBytes(max) returns b and consumes exactly what was written, for every byte string with len(b) <= max.", "quantifier": "all byte strings, all max, all following bytes", "why_tests_cant": "all lengths and contents.", "anchors": ["neocore/IO/BinaryWriter.py:BinaryWriter.WriteVarBytes", "neocore/IO/BinaryReader.py:BinaryReader.ReadVarBytes"]}
{"id": "C09", "title": "VarString round trip", "statement": "WriteVarString(s) then ReadVarString() returns the UTF-8 encoding of s and consumes exactly what was written; two different strings are never written identically.", "quantifier": "all strings (any length, any code points) and byte strings", "why_tests_cant": "the hex detour inside the writer must be lossless for every content.", "anchors": ["neocore/IO/BinaryWriter.py:BinaryWriter.WriteVarString", "neocore/IO/BinaryReader.py:BinaryReader.ReadVarString"]}
{"id": "C10", "title": "FixedString occupies exactly its declared length and reads back", "statement": "WriteFixedString(s, n) writes exactly n bytes or raises (iff the UTF-8 length exceeds n, writing nothing), and ReadFixedString(n) returns the UTF-8 of s when s does not end in NUL.", "quantifier": "all strings, all n, all surrounding bytes", "why_tests_cant": "includes strings that happen to look like hex; the field width must hold for all of them.", "anchors": ["neocore/IO/BinaryWriter.py:BinaryWriter.WriteFixedString", "neocore/IO/BinaryReader.py:BinaryReader.ReadFixedString"]}
{"id": "C11", "title": "WriteBytes writes the bytes it is given", "statement": "WriteBytes(b) appends exactly b and returns len(b).", "quantifier": "all byte strings b", "why_tests_cant": "default unhex=True makes the result depend on the content of b.", "anchors": ["neocore/IO/BinaryWriter.py:BinaryWriter.WriteBytes"]}
{"id": "C12", "title": "UInt160/UInt256 survive serialization", "statement": "Serialize then Deserialize (or WriteUInt160/256 then ReadUInt160/256) yields an equal object and consumes exactly 20/32 bytes.", "quantifier": "all 2^160 / 2^256 values, all following bytes", "why_tests_cant": "fails only on values whose raw bytes are all ASCII hex digits - a random test never hits one.", "anchors": ["neocore/UIntBase.py:UIntBase.Serialize", "neocore/UIntBase.py:UIntBase.Deserialize", "neocore/IO/BinaryWriter.py:BinaryWriter.WriteUInt160", "neocore/IO/BinaryReader.py:BinaryReader.ReadUInt160", "neocore/IO/BinaryReader.py:BinaryReader.ReadUInt256"]}
{"id": "C13", "title": "Reading is safe on every stream and history", "statement": "No sequence of reader calls, on any stream and with any outcomes (including exceptions), changes the stream's bytes, moves the position backwards, moves it beyond the end, or returns bytes that are not the bytes between the old and new position.", "quantifier": "all byte streams, all finite sequences of reader operations", "why_tests_cant": "unbounded operation histories over adversarial data.", "anchors": ["neocore/IO/BinaryReader.py:BinaryReader"]}
{"id": "C14", "title": "Writing is append-only on every history", "statement": "On a stream positioned at its end, every sequence of writer calls (including failing ones) only appends: the earlier bytes are never altered and the position stays at the end.", "quantifier": "all initial contents, all finite sequences of writer operations", "why_tests_cant": "unbounded operation histories.", "anchors": ["neocore/IO/BinaryWriter.py:BinaryWriter"]}
{"id": "C15", "title": "Mixed records are self-delimiting", "statement": "For every sequence of typed fields written one after another, reading with the same sequence of methods returns the same values and ends exactly where the writing ended.", "quantifier": "all finite sequences of typed fields (all integer widths, varint, varbytes, varstring, bool, char, double, uint160/256, Fixed8, hash lists)", "why_tests_cant": "all record shapes and values.", "anchors": ["neocore/IO/BinaryWriter.py:BinaryWriter", "neocore/IO/BinaryReader.py:BinaryReader"]}
{"id": "C16", "title": "Serializable arrays", "statement": "WriteSerializableArray(xs) then ReadSerializableArray returns equal items in order whenever each item's Deserialize inverts its Serialize; on any stream it never raises for a malformed item but returns the items read before the first failure, at most max of them.", "quantifier": "all element types with an inverse pair, all lists, all malformed streams", "why_tests_cant": "generic in the element type and list; error swallowing must hold at every failure point.", "anchors": ["neocore/IO/BinaryWriter.py:BinaryWriter.WriteSerializableArray", "neocore/IO/BinaryReader.py:BinaryReader.ReadSerializableArray"]}
{"id": "C17", "title": "Hash lists round trip", "statement": "WriteHashes(hs) then ReadHashes() returns the same list of 64-digit hex strings.", "quantifier": "all lists of 32-byte hashes in hex", "why_tests_cant": "all list lengths and contents, including contents that look like hex text.", "anchors": ["neocore/IO/BinaryWriter.py:BinaryWriter.WriteHashes", "neocore/IO/BinaryReader.py:BinaryReader.ReadHashes"]}
{"id": "C18", "title": "2000-hash lists round trip", "statement": "Write2000256List(hs) then Read2000256List() returns the same 2000 hashes.", "quantifier": "all lists of 2000 hashes", "why_tests_cant": "tests exercise writer and reader on separate streams only.", "anchors": ["neocore/IO/BinaryWriter.py:BinaryWriter.Write2000256List", "neocore/IO/BinaryReader.py:BinaryReader.Read2000256List"]}
{"id": "C19", "title": "Fixed8 survives serialization", "statement": "WriteFixed8(x) then ReadFixed8() returns x for every 64-bit amount, eight bytes; anything outside 64 bits raises and writes nothing.", "quantifier": "all integers", "why_tests_cant": "2^64 amounts and the out-of-range rest.", "anchors": ["neocore/IO/BinaryWriter.py:BinaryWriter.WriteFixed8", "neocore/IO/BinaryReader.py:BinaryReader.ReadFixed8"]}
{"id": "C20", "title": "SafeReadBytes is exact", "statement": "SafeReadBytes(n) either returns exactly the next n bytes or raises ValueError, the latter exactly when fewer than n remain; ReadBytes(n) returns the next min(n, remaining) bytes.", "quantifier": "all streams, positions, n >= 0", "why_tests_cant": "all streams and lengths.", "anchors": ["neocore/IO/BinaryReader.py:BinaryReader.SafeReadBytes", "neocore/IO/BinaryReader.py:BinaryReader.ReadBytes"]}
{"id": "C21", "title": "Booleans, chars and doubles survive serialization", "statement": "WriteBool/ReadBool, WriteChar/ReadChar and WriteDouble/ReadDouble return the value written, for each byte order; ReadByte never raises and yields 0 at end of stream.", "quantifier": "all values including every one of the 2^64 double bit patterns", "why_tests_cant": "bit-exactness over all patterns.", "anchors": ["neocore/IO/BinaryWriter.py:BinaryWriter.WriteBool", "neocore/IO/BinaryWriter.py:BinaryWriter.WriteChar", "neocore/IO/BinaryWriter.py:BinaryWriter.WriteDouble", "neocore/IO/BinaryReader.py:BinaryReader.ReadBool", "neocore/IO/BinaryReader.py:BinaryReader.ReadByte"]}
{"id": "C22", "title": "swap32 is an involution reversing byte order", "statement": "swap32 maps each 32-bit value to the one with its four bytes reversed, is its own inverse, and raises outside 32 bits.", "quantifier": "all integers", "why_tests_cant": "2^32 values.", "anchors": ["neocore/IO/BinaryWriter.py:swap32"]}
{"id": "C23", "title": "convert_to_uint160/256 give the low bits", "statement": "convert_to_uint160(v) (resp. 256) is the 20-digit (32-digit) binary numeral of v mod 2^20 (2^32).", "quantifier": "all integers v", "why_tests_cant": "fails only for some negative values.", "anchors": ["neocore/IO/BinaryWriter.py:convert_to_uint160", "neocore/IO/BinaryWriter.py:convert_to_uint256"]}
{"id": "C24", "title": "BigInteger byte encoding round trip", "statement": "FromBytes(x.ToByteArray(), signed=True) == x for every integer; for x >= 0 also FromBytes(x.ToByteArray(signed=False)) == x.", "quantifier": "all integers", "why_tests_cant": "sign-bit boundaries occur at every byte length.", "anchors": ["neocore/BigInteger.py:BigInteger.ToByteArray", "neocore/BigInteger.py:BigInteger.FromBytes"]}
{"id": "C25", "title": "BigInteger byte encoding is minimal two's complement", "statement": "ToByteArray returns the shortest two's complement little-endian encoding (as .NET BigInteger.ToByteArray does).", "quantifier": "all integers", "why_tests_cant": "minimality at every length.", "anchors": ["neocore/BigInteger.py:BigInteger.ToByteArray"]}
{"id": "C26", "title": "BigInteger arithmetic", "statement": "+, -, *, unary -, abs, //, /, %, <<, >> on BigIntegers yield BigIntegers with exact integer values; / is floor division; for b != 0, a == (a/b)*b + a%b with a%b having the sign of b and |a%b| < |b|; division by zero and negative shifts raise.", "quantifier": "all pairs of integers", "why_tests_cant": "unbounded operands, all sign combinations.", "anchors": ["neocore/BigInteger.py:BigInteger.__truediv__", "neocore/BigInteger.py:BigInteger.__mod__", "neocore/BigInteger.py:BigInteger.__floordiv__", "neocore/BigInteger.py:BigInteger.Sign"]}
{"id": "C27", "title": "Fixed8 addition, subtraction, negation and comparison are exact", "statement": "Fixed8 +, -, unary - and the comparison operators agree exactly with those on the underlying integer amounts (so balances computed in any order agree, and == / < / > form a total order).", "quantifier": "all integer amounts, all sequences of additions and subtractions", "why_tests_cant": "algebraic laws over all amounts and orders.", "anchors": ["neocore/Fixed8.py:Fixed8.__add__", "neocore/Fixed8.py:Fixed8.__sub__", "neocore/Fixed8.py:Fixed8.__lt__", "neocore/Fixed8.py:Fixed8.__eq__"]}
{"id": "C28", "title": "Fixed8 Floor, Ceil and ToInt are exact", "statement": "Floor (Ceil) is the largest (smallest) whole-unit amount not above (below) the amount; ToInt is the amount truncated to whole units.", "quantifier": "all 64-bit amounts", "why_tests_cant": "goes through double-precision division: fails only for amounts above 2^27 units next to a whole unit.", "anchors": ["neocore/Fixed8.py:Fixed8.Floor", "neocore/Fixed8.py:Fixed8.Ceil", "neocore/Fixed8.py:Fixed8.ToInt"]}
{"id": "C29", "title": "Fixed8 division truncates exactly", "statement": "a / b is the quotient of the underlying integers truncated toward zero.", "quantifier": "all pairs of amounts", "why_tests_cant": "floating-point rounding shows only for large quotients.", "anchors": ["neocore/Fixed8.py:Fixed8.__truediv__", "neocore/Fixed8.py:Fixed8.__floordiv__", "neocore/Fixed8.py:Fixed8.__mod__"]}
{"id": "C30", "title": "Fixed8.FromDecimal is exact on floats denoting amounts with at most 8 decimals", "statement": "FromDecimal of the double nearest to v/10^8 is the amount v.", "quantifier": "all amounts v", "why_tests_cant": "truncation errors affect scattered values only.", "anchors": ["neocore/Fixed8.py:Fixed8.FromDecimal"]}
{"id": "C31", "title": "Fixed8.TryParse is total and exact on whole units", "statement": "TryParse never raises, whatever text or number it is given; for a whole number of units it is exact.", "quantifier": "all numbers and all strings", "why_tests_cant": "special strings (inf, nan, huge exponents) and rounding.", "anchors": ["neocore/Fixed8.py:Fixed8.TryParse"]}
{"id": "C32", "title": "Fixed8 text output denotes the exact amount", "statement": "ToString()/ToNeoJsonString() denote the decimal number value/10^8 exactly.", "quantifier": "all 64-bit amounts", "why_tests_cant": "shortest-repr of a rounded double: exact only below 10^15.", "anchors": ["neocore/Fixed8.py:Fixed8.ToString", "neocore/Fixed8.py:Fixed8.ToNeoJsonString"]}
{"id": "C33", "title": "UInt ParseString/ToString are inverse and ParseString accepts exactly the valid strings", "statement": "ParseString accepts exactly 40 (64) hex digits in any case, optionally prefixed by 0x, and raises on anything else; ParseString(u.ToString()) == ParseString(u.To0xString()) == u; ToString of a parsed string is its lower-case digits.", "quantifier": "all strings; all values", "why_tests_cant": "all strings of all lengths, incl. embedded blanks (which bytearray.fromhex skips).", "anchors": ["neocore/UInt160.py:UInt160.ParseString", "neocore/UInt256.py:UInt256.ParseString", "neocore/UIntBase.py:UIntBase.ToString", "neocore/UIntBase.py:UIntBase.To0xString"]}
{"id": "C34", "title": "UInt hash stays consistent with equality under mutation", "statement": "Equal objects have equal hash, through any history of constructions, Deserialize calls and mutations of the byte arrays objects were built from.", "quantifier": "all values and all histories of operations", "why_tests_cant": "needs every interleaving of construction, deserialization and aliasing mutation.", "anchors": ["neocore/UIntBase.py:UIntBase.__init__", "neocore/UIntBase.py:UIntBase.__eq__", "neocore/UIntBase.py:UIntBase.__hash__", "neocore/UIntBase.py:UIntBase.Deserialize"]}
{"id": "C35", "title": "UInt ordering is a total order consistent with equality", "statement": "CompareTo orders values by their little-endian number: it is -1/0/1 exactly as the number is smaller/equal/larger, hence antisymmetric and 0 only for equal values.", "quantifier": "all pairs/triples of values of equal length", "why_tests_cant": "a wrong loop bound shows only when values differ in a single byte position.", "anchors": ["neocore/UIntBase.py:UIntBase.CompareTo", "neocore/UIntBase.py:UIntBase.__lt__", "neocore/UIntBase.py:UIntBase.__le__"]}
{"id": "C36", "title": "A UInt keeps its size", "statement": "A UInt160 always holds 20 bytes and a UInt256 32, through any history of constructions and Deserialize calls; Deserialize from a stream that is too short fails.", "quantifier": "all histories; all streams", "why_tests_cant": "all truncation points of all streams.", "anchors": ["neocore/UIntBase.py:UIntBase.__init__", "neocore/UIntBase.py:UIntBase.Deserialize", "neocore/UIntBase.py:UIntBase.Size"]}
{"id": "C37", "title": "Base58 is lossless", "statement": "Decoding the Base58 text of any byte string returns that byte string, and encoding what a Base58 text decodes to returns that text; so texts and byte strings correspond one to one.", "quantifier": "all byte strings, all Base58 texts", "why_tests_cant": "leading zeros and every length.", "anchors": ["neocore/Cryptography/Helper.py:scripthash_to_address", "neocore/KeyPair.py:KeyPair.Export", "neocore/bin/cli.py:address_to_scripthash"]}
{"id": "C38", "title": "Address <-> script hash", "statement": "For every 20-byte script hash h, address_to_scripthash(scripthash_to_address(h)) == h; different script hashes have different addresses.", "quantifier": "all 2^160 script hashes", "why_tests_cant": "all hashes.", "anchors": ["neocore/Cryptography/Helper.py:scripthash_to_address", "neocore/Cryptography/Crypto.py:Crypto.ToAddress", "neocore/bin/cli.py:address_to_scripthash"]}
{"id": "C39", "title": "Every generated address is a valid public address", "statement": "For every script hash, the generated address has 34 characters, starts with 'A', and isValidPublicAddress accepts it.", "quantifier": "all 2^160 script hashes", "why_tests_cant": "length and first character depend on the whole number range.", "anchors": ["neocore/Cryptography/Helper.py:scripthash_to_address", "neocore/Utils.py:isValidPublicAddress"]}
{"id": "C40", "title": "isValidPublicAddress accepts only NEO addresses", "statement": "isValidPublicAddress(s) is true exactly when s is the address of some script hash (version byte 23, right checksum).", "quantifier": "all strings", "why_tests_cant": "all 34-character strings; near-miss version bytes.", "anchors": ["neocore/Utils.py:isValidPublicAddress"]}
{"id": "C41", "title": "np-utils address_to_scripthash rejects foreign addresses", "statement": "address_to_scripthash raises ConversionError unless the text is a NEO address (version byte 0x17, 20-byte hash, right checksum).", "quantifier": "all strings", "why_tests_cant": "all other version bytes and lengths.", "anchors": ["neocore/bin/cli.py:address_to_scripthash"]}
{"id": "C42", "title": "np-utils scripthash_to_address handles both byte orders and fails cleanly", "statement": "For every script hash the little-endian hex form and the 0x-prefixed big-endian form give the same address, the inverse of address_to_scripthash; every other string raises ConversionError, never anything else.", "quantifier": "all strings, all script hashes", "why_tests_cant": "all malformed strings.", "anchors": ["neocore/bin/cli.py:scripthash_to_address", "neocore/UInt160.py:UInt160.ParseString"]}
{"id": "C43", "title": "WIF export/import round trip", "statement": "PrivateKeyFromWIF(kp.Export()) returns kp's 32-byte private key; the text has 52 characters.", "quantifier": "all 2^256 private keys", "why_tests_cant": "length and format hold for the whole range of keys.", "anchors": ["neocore/KeyPair.py:KeyPair.Export", "neocore/KeyPair.py:KeyPair.PrivateKeyFromWIF"]}
{"id": "C44", "title": "WIF import accepts only canonical WIFs", "statement": "If PrivateKeyFromWIF(w) returns k then w is exactly the WIF export of k; anything else of any form raises. So one key never has two accepted WIFs.", "quantifier": "all strings", "why_tests_cant": "all 52-character strings.", "anchors": ["neocore/KeyPair.py:KeyPair.PrivateKeyFromWIF"]}
{"id": "C45", "title": "NEP-2 encryption round trip", "statement": "PrivateKeyFromNEP2(kp.ExportNEP2(pw), pw) returns kp's private key for every key and passphrase of at least 2 characters; shorter passphrases raise.", "quantifier": "all private keys, all passphrases", "why_tests_cant": "all keys and passphrases; scrypt/AES treated by contract.", "anchors": ["neocore/KeyPair.py:KeyPair.ExportNEP2", "neocore/KeyPair.py:KeyPair.PrivateKeyFromNEP2", "neocore/Cryptography/Helper.py:xor_bytes"]}
{"id": "C46", "title": "NEP-2 import never returns a key for the wrong address", "statement": "If PrivateKeyFromNEP2 returns k then the double-SHA256 of k's address begins with the 4 address-hash bytes stored in the text, and the text is a well-formed NEP-2 record (prefix 0x0142, flag 0xe0, 39 bytes).", "quantifier": "all texts and passphrases", "why_tests_cant": "all malformed records.", "anchors": ["neocore/KeyPair.py:KeyPair.PrivateKeyFromNEP2"]}
{"id": "C47", "title": "Key pair construction", "statement": "KeyPair accepts exactly 32-, 96- and 104-byte keys; PrivateKey is the last 32 bytes; for 96/104 bytes the public key is the embedded point, for 32 bytes the derived one.", "quantifier": "all byte strings", "why_tests_cant": "all lengths and contents.", "anchors": ["neocore/KeyPair.py:KeyPair.__init__"]}
{"id": "C48", "title": "All ways to derive an address from a public key agree", "statement": "KeyPair.GetAddress(), Helper.scripthash_to_address(pubkey_to_pubhash(encoded key)) and Crypto.ToAddress(ToScriptHash(verification script)) are the same address for every public key.", "quantifier": "all public keys", "why_tests_cant": "all keys.", "anchors": ["neocore/KeyPair.py:KeyPair.GetAddress", "neocore/Cryptography/Helper.py:pubkey_to_redeem", "neocore/Cryptography/Helper.py:pubkey_to_pubhash", "neocore/Cryptography/Crypto.py:Crypto.ToScriptHash", "neocore/Cryptography/Crypto.py:Crypto.ToAddress"]}
{"id": "C49", "title": "xor_bytes", "statement": "xor_bytes is defined exactly on equal-length inputs, keeps the length, is commutative and associative, and xor-ing twice with the same key restores the input.", "quantifier": "all byte strings", "why_tests_cant": "all lengths and contents.", "anchors": ["neocore/Cryptography/Helper.py:xor_bytes"]}
{"id": "C50", "title": "base256_encode", "statement": "base256_encode(n, w) is the little-endian base-256 form of n, without superfluous zeros beyond max(w, 1) bytes; int.from_bytes(..,'little') inverts it; negatives raise.", "quantifier": "all integers n, all w", "why_tests_cant": "unbounded integers.", "anchors": ["neocore/Cryptography/Helper.py:base256_encode"]}
{"id": "C51", "title": "Hash helper consistency", "statement": "double_sha256 is the hex of bin_dbl_sha256 (= Crypto.Hash256), bin_hash160 is the hex of bin_hash160Bytes, ToScriptHash(hex d) equals ToScriptHash(d, unhex=False) and always has 20 bytes; random_key is always 64 hex digits.", "quantifier": "all messages, all hash functions of the right output size", "why_tests_cant": "all inputs.", "anchors": ["neocore/Cryptography/Helper.py:double_sha256", "neocore/Cryptography/Helper.py:bin_dbl_sha256", "neocore/Cryptography/Helper.py:bin_hash160", "neocore/Cryptography/Crypto.py:Crypto.ToScriptHash", "neocore/Cryptography/Crypto.py:Crypto.Hash256", "neocore/Cryptography/Helper.py:random_key"]}
{"id": "C52", "title": "Signing uses the NEO curve in every call history", "statement": "Crypto.Sign and Crypto.VerifySignature with a compressed key use secp256r1 parameters whatever library calls were made before.", "quantifier": "all call histories from a fresh process", "why_tests_cant": "curve parameters are process-global state set by side effect of other calls.", "anchors": ["neocore/Cryptography/Crypto.py:Crypto.SetupSignatureCurve", "neocore/Cryptography/Crypto.py:Crypto.Default", "neocore/Cryptography/Crypto.py:Crypto.Sign", "neocore/Cryptography/Crypto.py:Crypto.VerifySignature", "neocore/KeyPair.py:KeyPair.setup_curve"]}
{"id": "C53", "title": "VerifySignature is a total predicate", "statement": "VerifySignature returns True or False and never raises, whatever message, signature and key it is given, and accepts every valid ECDSA signature.", "quantifier": "all messages, keys and signatures", "why_tests_cant": "all malformed inputs.", "anchors": ["neocore/Cryptography/Crypto.py:Crypto.Sign", "neocore/Cryptography/Crypto.py:Crypto.VerifySignature"]}
{"id": "C54", "title": "Merkle root is the standard pairwise double-SHA256 root", "statement": "ComputeRoot(hs) equals the root obtained by repeatedly hashing adjacent pairs (duplicating the last element of odd levels); the empty list raises.", "quantifier": "all nonempty hash lists, any hash function", "why_tests_cant": "all list lengths.", "anchors": ["neocore/Cryptography/MerkleTree.py:MerkleTree.ComputeRoot", "neocore/Cryptography/MerkleTree.py:MerkleTree.__Build"]}
{"id": "C55", "title": "Merkle root binds the list", "statement": "Two different lists with the same root yield an explicit collision of the double hash.", "quantifier": "all pairs of lists", "why_tests_cant": "needs reasoning over all lists, and fails for lists of different length.", "anchors": ["neocore/Cryptography/MerkleTree.py:MerkleTree.ComputeRoot"]}
{"id": "C56", "title": "Merkle depth", "statement": "Depth of the tree over n hashes is 1 + ceil(log2 n), and every leaf is at that depth.", "quantifier": "all n >= 1", "why_tests_cant": "all sizes.", "anchors": ["neocore/Cryptography/MerkleTree.py:MerkleTree.__init__"]}
{"id": "C57", "title": "ToHashArray returns exactly the leaves", "statement": "ToHashArray returns each distinct leaf hash exactly once and nothing else.", "quantifier": "all hash lists", "why_tests_cant": "all lists with repetitions.", "anchors": ["neocore/Cryptography/MerkleTree.py:MerkleTree.ToHashArray", "neocore/Cryptography/MerkleTree.py:MerkleTree.__DepthFirstSearch"]}
{"id": "C58", "title": "Trim keeps the root hash and removes exactly the unflagged subtrees", "statement": "Trim(flags) removes exactly those bottom pairs (and parents left without remaining children) whose two flags are both zero.", "quantifier": "all trees, all flag strings", "why_tests_cant": "all shapes and flag patterns.", "anchors": ["neocore/Cryptography/MerkleTree.py:MerkleTree.Trim", "neocore/Cryptography/MerkleTree.py:MerkleTree._TrimNode"]}
{"id": "C59", "title": "Merkle node links are consistent", "statement": "In a built tree the root is the only node without parent, each child's Parent is the node it hangs from, and IsLeaf holds exactly for the nodes created for the input hashes.", "quantifier": "all nonempty hash lists", "why_tests_cant": "pointer structure of every size, with shared nodes on odd levels.", "anchors": ["neocore/Cryptography/MerkleTree.py:MerkleTree.__Build", "neocore/Cryptography/MerkleTree.py:MerkleTreeNode.IsRoot", "neocore/Cryptography/MerkleTree.py:MerkleTreeNode.IsLeaf"]}
{"id": "C60", "title": "modinv", "statement": "modinv(x, m) is an inverse of x mod m whenever gcd(x, m) = 1.", "quantifier": "all integers", "why_tests_cant": "unbounded integers, termination included.", "anchors": ["neocore/Cryptography/ECCurve.py:modinv"]}
{"id": "C61", "title": "FiniteField division", "statement": "/ on FiniteField values agrees with division mod p; division by zero raises.", "quantifier": "all primes p, all values (reduced or not)", "why_tests_cant": "all operands and moduli.", "anchors": ["neocore/Cryptography/ECCurve.py:FiniteField", "neocore/Cryptography/ECCurve.py:FiniteField.Value"]}
{"id": "C62", "title": "Point addition is the elliptic-curve group law", "statement": "For points on the curve, + agrees with the chord-and-tangent group law: result on curve, commutative, associative, (0,0)/Infinity neutral.", "quantifier": "all primes p > 3, all nonsingular curves with b != 0, all points", "why_tests_cant": "all points; associativity ranges over triples.", "anchors": ["neocore/Cryptography/ECCurve.py:EllipticCurve.add", "neocore/Cryptography/ECCurve.py:EllipticCurve.zero", "neocore/Cryptography/ECCurve.py:EllipticCurve.isoncurve"]}
{"id": "C63", "title": "Point negation and subtraction", "statement": "-P is the group inverse and P - Q = P + (-Q) for all points including Infinity; in particular P - Infinity = P and P - P = Infinity.", "quantifier": "all curves and points", "why_tests_cant": "special points (Infinity, 2-torsion).", "anchors": ["neocore/Cryptography/ECCurve.py:EllipticCurve.neg", "neocore/Cryptography/ECCurve.py:EllipticCurve.sub"]}
{"id": "C64", "title": "Scalar multiplication", "statement": "P * n is the n-fold sum of P; hence ECDSA.calcpub(x) is the x-multiple of the generator.", "quantifier": "all points and scalars", "why_tests_cant": "all scalars.", "anchors": ["neocore/Cryptography/ECCurve.py:EllipticCurve.mul", "neocore/Cryptography/ECCurve.py:ECDSA.calcpub"]}
{"id": "C65", "title": "Modular square root is found when it exists", "statement": "sqrtCQ(v, p) finds a root whenever v is a square mod a prime p.", "quantifier": "all v, all primes p", "why_tests_cant": "all residues; primes of both residue classes mod 4.", "anchors": ["neocore/Cryptography/ECCurve.py:sqrtCQ", "neocore/Cryptography/ECCurve.py:FiniteField.sqrt"]}
{"id": "C66", "title": "Public key encoding round trip", "statement": "decode_from_hex(P.encode_point(c)) == P for both forms and for Infinity, and Deserialize_Secp256r1 reads back both forms.", "quantifier": "all points of secp256r1", "why_tests_cant": "all points; requires primality of p and correctness of the square root.", "anchors": ["neocore/Cryptography/ECCurve.py:ECPoint.encode_point", "neocore/Cryptography/ECCurve.py:EllipticCurve.decode_from_hex", "neocore/Cryptography/ECCurve.py:EllipticCurve.decode_from_reader", "neocore/Cryptography/ECCurve.py:ECPoint.Serialize", "neocore/Cryptography/ECCurve.py:EllipticCurve.decompress_from_curve", "neocore/Cryptography/ECCurve.py:ECPoint.Size"]}
{"id": "C67", "title": "Decoded public keys are on the curve", "statement": "ECDSA.decode_secp256r1 (with its check) and Deserialize_Secp256r1 only ever return points of the curve or Infinity, for any input; every other input raises.", "quantifier": "all byte strings", "why_tests_cant": "adversarial inputs.", "anchors": ["neocore/Cryptography/ECCurve.py:ECDSA.decode_secp256r1", "neocore/Cryptography/ECCurve.py:ECDSA.Deserialize_Secp256r1", "neocore/Cryptography/ECCurve.py:EllipticCurve.decode_from_hex"]}
{"id": "C68", "title": "FromBytes_Secp256r1 decodes all its documented lengths", "statement": "FromBytes_Secp256r1 decodes 33/65-byte (prefixed), 64/72-byte and 96/104-byte keys to the contained point.", "quantifier": "all byte strings of those lengths", "why_tests_cant": "all contents; tests do not cover it.", "anchors": ["neocore/Cryptography/ECCurve.py:ECDSA.FromBytes_Secp256r1"]}
{"id": "C69", "title": "Point order", "statement": "<, <=, >, >= on points form a total order consistent with == (so sorting public keys is deterministic).", "quantifier": "all pairs of points", "why_tests_cant": "differs only for points sharing an x coordinate.", "anchors": ["neocore/Cryptography/ECCurve.py:ECPoint.__lt__", "neocore/Cryptography/ECCurve.py:ECPoint.__gt__", "neocore/Cryptography/ECCurve.py:ECPoint.__le__", "neocore/Cryptography/ECCurve.py:ECPoint.__ge__"]}
{"id": "C70", "title": "Nonce reuse recovery from plain integers", "statement": "crack2 called with plain integers recovers nonce and key from any two signatures sharing r, whenever the divisions are by nonzero values.", "quantifier": "all prime orders, keys, nonces and messages", "why_tests_cant": "algebra over all values.", "anchors": ["neocore/Cryptography/ECCurve.py:ECDSA.crack2"]}
{"id": "C71", "title": "ECDSA sign/verify on secp256r1", "statement": "ECDSA.secp256r1().verify(m, Y, *sign(m, x, k)) holds for Y = calcpub(x).", "quantifier": "all messages, keys and nonces", "why_tests_cant": "all values.", "anchors": ["neocore/Cryptography/ECCurve.py:ECDSA.sign", "neocore/Cryptography/ECCurve.py:ECDSA.verify", "neocore/Cryptography/ECCurve.py:ECDSA.secp256r1", "neocore/Cryptography/ECCurve.py:ECDSA.SignSecp256R1"]}
{"id": "C72", "title": "Lucas sequences", "statement": "_lucas_sequence(n, P, Q, k) returns (U_k(P,Q) mod n, V_k(P,Q) mod n) for odd n; it rejects n < 2, k < 0 and zero discriminant.", "quantifier": "all odd n >= 2, all P, Q, k", "why_tests_cant": "three code branches over unbounded parameters.", "anchors": ["neocore/Cryptography/ECCurve.py:_lucas_sequence"]}
{"id": "C73", "title": "next_random_integer stays in range", "statement": "next_random_integer(s) returns a value below 2^s for every s >= 0 and every random outcome.", "quantifier": "all sizes and random outcomes", "why_tests_cant": "all random outcomes.", "anchors": ["neocore/Cryptography/ECCurve.py:next_random_integer"]}
{"id": "C74", "title": "Fixed8 multiplication and division scale amounts", "statement": "Fixed8 * and / act on amounts: x * Fixed8.One() == x, x / Fixed8.One() == x, and a * b denotes the product of the two decimal numbers.", "quantifier": "all pairs of amounts", "why_tests_cant": "all pairs of values; a test on zero passes.", "anchors": ["neocore/Fixed8.py:Fixed8.__mul__", "neocore/Fixed8.py:Fixed8.__truediv__", "neocore/Fixed8.py:Fixed8.__pow__"]}
{"id": "C75", "title": "FiniteField.sqrt", "statement": "For an odd prime p not congruent 1 mod 8, F.value(v).sqrt(flag) is the square root of v with parity flag, whenever v is a nonzero square mod p; other moduli are refused.", "quantifier": "all such primes, all squares, both parities", "why_tests_cant": "all primes and all squares; small-prime tests pass while the curve's own prime fails.", "anchors": ["neocore/Cryptography/ECCurve.py:FiniteField.sqrt"]}
{"id": "C76", "title": "Public key text form", "statement": "ECPoint.ToString()/ToBytes() are the hex text of the 33-byte compressed encoding, so decode_from_hex(P.ToString()) == P.", "quantifier": "all points of secp256r1", "why_tests_cant": "2^256 points.", "anchors": ["neocore/Cryptography/ECCurve.py:EllipticCurve.ECPoint.ToString", "neocore/Cryptography/ECCurve.py:EllipticCurve.ECPoint.ToBytes"]}
{"id": "C77", "title": "One encoding per public key", "statement": "Two different byte strings of the same length that decode_secp256r1 accepts never give equal points (==), other than Infinity: encodings are canonical.", "quantifier": "all pairs of byte strings", "why_tests_cant": "pairs of 33- and 65-byte strings; collisions only occur for coordinates above the field prime.", "anchors": ["neocore/Cryptography/ECCurve.py:EllipticCurve.decode_from_hex", "neocore/Cryptography/ECCurve.py:ECDSA.decode_secp256r1"]}
{"id": "C78", "title": "Truncated public keys are refused", "statement": "Deserialize_Secp256r1 raises when the stream ends before the key is complete.", "quantifier": "all streams", "why_tests_cant": "all truncation points of all keys.", "anchors": ["neocore/Cryptography/ECCurve.py:EllipticCurve.decode_from_reader", "neocore/Cryptography/ECCurve.py:ECDSA.Deserialize_Secp256r1", "neocore/IO/BinaryReader.py:BinaryReader.ReadByte"]}
{"id": "C79", "title": "Point decompression", "statement": "EllipticCurve.decompress(x, flag) is the point of the curve with that x and a y of that parity, whenever one exists.", "quantifier": "all curves over primes not congruent 1 mod 8, all points, both parities", "why_tests_cant": "all primes and points; small-prime tests pass while the curve's own prime fails.", "anchors": ["neocore/Cryptography/ECCurve.py:EllipticCurve.decompress", "neocore/Cryptography/ECCurve.py:FiniteField.sqrt"]}
{"id": "C80", "title": "What Sign produces, VerifySignature accepts", "statement": "For every message and every private key with a number in 1..n-1, the signature returned by Crypto.Sign has s at most n/2 and is accepted by Crypto.VerifySignature for the same message and the public key of that private key, however that key is given (point object, 64 bytes, 33 bytes).", "quantifier": "all messages, private keys, nonces, and forms of the public key", "why_tests_cant": "the rare nonces and keys with a coordinate between n and p cannot be found by sampling", "anchors": ["neocore/Cryptography/Crypto.py:Crypto.Sign", "neocore/Cryptography/Crypto.py:Crypto.VerifySignature", "neocore/KeyPair.py:KeyPair.__init__"]}
{"id": "C81", "title": "VarInt round trip with the default bound", "statement": "A caller that leaves ReadVarInt's max at its default gets back every value below 2^64 that WriteVarInt wrote.", "quantifier": "all v in [0, 2^64), all following bytes", "why_tests_cant": "the upper half of the 64-bit range behaves differently from the lower half.", "anchors": ["neocore/IO/BinaryWriter.py:BinaryWriter.WriteVarInt", "neocore/IO/BinaryReader.py:BinaryReader.ReadVarInt"]}
{"id": "C82", "title": "WriteFixedString refuses strings that are too long", "statement": "WriteFixedString(s, n) raises whenever the UTF-8 form of s is longer than n bytes, and then leaves the stream exactly as it was.", "quantifier": "all strings, all n (negative too), all stream states", "why_tests_cant": "multi-byte characters at every length.", "anchors": ["neocore/IO/BinaryWriter.py:BinaryWriter.WriteFixedString"]}
{"id": "C83", "title": "Raw writes are exact", "statement": "WriteBytes(b, unhex=False) appends exactly b and returns len(b); with the default unhex=True the bytes appended are b exactly when b is empty or is not an even-length string of ASCII hex digits.", "quantifier": "all byte strings b", "why_tests_cant": "the second claim is an equivalence over all contents.", "anchors": ["neocore/IO/BinaryWriter.py:BinaryWriter.WriteBytes"]}
{"id": "C84", "title": "Fixed8 floor division and remainder are exact", "statement": "a // b is the floor of the exact quotient of the amounts, a == (a // b) * b + a % b with a % b between 0 and b on b's side; dividing by zero raises ZeroDivisionError in all three forms /, // and %.", "quantifier": "all pairs of amounts", "why_tests_cant": "all sign combinations and sizes.", "anchors": ["neocore/Fixed8.py:Fixed8.__floordiv__", "neocore/Fixed8.py:Fixed8.__mod__", "neocore/Fixed8.py:Fixed8.__truediv__"]}
{"id": "C85", "title": "Fixed8.FromDecimal of ints and Decimals is exact", "statement": "FromDecimal(n) is n units exactly for every int n; FromDecimal of a Decimal of at most 28 digits and below 10^999992 is exact if it has at most 8 decimals, and truncates toward zero otherwise; larger ones raise decimal.Overflow, a NaN ValueError, an infinity OverflowError, a signalling NaN decimal.InvalidOperation.", "quantifier": "all integers; all Decimals with at most 28 significant digits", "why_tests_cant": "all coefficients and exponents; context rounding must never show.", "anchors": ["neocore/Fixed8.py:Fixed8.FromDecimal"]}
{"id": "C86", "title": "Fixed8.TryParse: no number gives None, require_positive gives no negative", "statement": "TryParse returns None on whatever neither float() nor int() accepts; with require_positive it never returns a negative amount.", "quantifier": "all arguments, whatever float() and int() make of them", "why_tests_cant": "all strings and numbers.", "anchors": ["neocore/Fixed8.py:Fixed8.TryParse"]}
{"id": "C87", "title": "UInt equality is equality of contents and the hash is a function of them", "statement": "u == v holds exactly when v is a UInt with the same bytes; GetHashCode is the little-endian number of the first four bytes, for every object reached by constructions and Deserialize calls as long as no client mutates a byte array it handed to a constructor.", "quantifier": "all values and all histories without such mutations", "why_tests_cant": "all histories of operations.", "anchors": ["neocore/UIntBase.py:UIntBase.__eq__", "neocore/UIntBase.py:UIntBase.__hash__", "neocore/UIntBase.py:UIntBase.GetHashCode"]}
{"id": "C88", "title": "UInt comparison operators agree with CompareTo", "statement": "For values of one length <, <=, >, >= are true exactly as CompareTo is negative, non-positive, positive, non-negative; CompareTo(x, y) = -CompareTo(y, x), is 0 on equal values and <= is transitive; comparing with anything of another type or length raises.", "quantifier": "all triples of values; all other arguments", "why_tests_cant": "quantifies over triples of values.", "anchors": ["neocore/UIntBase.py:UIntBase.CompareTo", "neocore/UIntBase.py:UIntBase.__lt__", "neocore/UIntBase.py:UIntBase.__le__", "neocore/UIntBase.py:UIntBase.__gt__", "neocore/UIntBase.py:UIntBase.__ge__"]}
{"id": "C89", "title": "UInt constructors accept exactly data of the right size", "statement": "UInt160/UInt256 built from nothing hold 20/32 zero bytes; built from bytes or bytearray of exactly 20/32 bytes hold those bytes; every other argument raises (Exception for bytes, bytearrays and texts, TypeError for objects without a length).", "quantifier": "all constructor arguments", "why_tests_cant": "all types, lengths and contents.", "anchors": ["neocore/UIntBase.py:UIntBase.__init__"]}
{"id": "C90", "title": "isValidPublicAddress is total and accepts every NEO address", "statement": "isValidPublicAddress never raises for a string and returns True for the address of every script hash.", "quantifier": "all strings; all script hashes", "why_tests_cant": "all malformed strings.", "anchors": ["neocore/Utils.py:isValidPublicAddress"]}
{"id": "C91", "title": "After a KeyPair or SetupSignatureCurve, signing uses secp256r1", "statement": "In every call history that contains a KeyPair construction, SetupSignatureCurve, Crypto.Default, Export or create_wallet, Sign and VerifySignature behave as in a process that only called SetupSignatureCurve; both places in the code that set the curve set the same secp256r1 parameters.", "quantifier": "all call histories, all arguments", "why_tests_cant": "curve parameters are process-global state changed by side effect.", "anchors": ["neocore/Cryptography/Crypto.py:Crypto.SetupSignatureCurve", "neocore/Cryptography/Crypto.py:Crypto.Default", "neocore/Cryptography/Crypto.py:Crypto.Sign", "neocore/KeyPair.py:KeyPair.setup_curve"]}
{"id": "C92", "title": "Sign returns r and s as 32 + 32 bytes", "statement": "Crypto.Sign(message, key) returns exactly the 32-byte big-endian form of r followed by that of s, for the signature (r, s) of the SHA-256 digest of the unhexlified message; it returns nothing else.", "quantifier": "all messages, all keys, all curve states", "why_tests_cant": "padding of small r or s.", "anchors": ["neocore/Cryptography/Crypto.py:Crypto.Sign"]}
{"id": "C93", "title": "VerifySignature returns True exactly for valid signatures", "statement": "VerifySignature returns True exactly when the key denotes a point of secp256r1 with coordinates below n, the signature is 64 bytes r||s and (r, s) satisfies the ECDSA equation for the SHA-256 digest of the message.", "quantifier": "all messages, signatures, keys (points, 64 or 33 bytes, hex), both unhex modes", "why_tests_cant": "a forgery accepted for one malformed input would not show in tests.", "anchors": ["neocore/Cryptography/Crypto.py:Crypto.VerifySignature", "neocore/Cryptography/ECCurve.py:ECDSA.decode_secp256r1"]}
{"id": "C94", "title": "Effect of Trim", "statement": "Trim(flags) never raises on a constructed tree, keeps root, depth, every hash and every parent link, and cuts everything below the root if the first two flags are zero, otherwise nothing.", "quantifier": "all trees, all flag strings", "why_tests_cant": "all shapes and flag patterns.", "anchors": ["neocore/Cryptography/MerkleTree.py:MerkleTree.Trim", "neocore/Cryptography/MerkleTree.py:MerkleTree._TrimNode"]}
{"id": "C95", "title": "Extended Euclid", "statement": "GCD(a, b) terminates and returns (g, c, d) with a*c + b*d = g, where g divides a and b and every common divisor divides g.", "quantifier": "all pairs of integers", "why_tests_cant": "unbounded integers, all signs, termination included.", "anchors": ["neocore/Cryptography/ECCurve.py:GCD"]}
{"id": "C96", "title": "FiniteField ring operations are arithmetic mod p", "statement": "+, -, * and ** with a non-negative exponent give the residue of the exact result in [0, p); unary - is congruent to the negative; == is congruence mod p.", "quantifier": "all p > 0, all values (reduced or not), all exponents", "why_tests_cant": "all operands and moduli.", "anchors": ["neocore/Cryptography/ECCurve.py:FiniteField", "neocore/Cryptography/ECCurve.py:FiniteField.Value"]}
{"id": "C97", "title": "Modular square roots are roots", "statement": "Whenever sqrtCQ(v, p) returns r then r*r = v mod p and 0 <= r < p.", "quantifier": "all v, all p > 0", "why_tests_cant": "all residues and moduli.", "anchors": ["neocore/Cryptography/ECCurve.py:sqrtCQ"]}
{"id": "C98", "title": "Public keys survive stream serialisation", "statement": "Deserialize_Secp256r1 of P.Serialize() is P and consumes exactly Size() bytes: 33, or 1 for Infinity; distinct points have distinct encodings, in both forms.", "quantifier": "all points of secp256r1, Infinity included; all following bytes", "why_tests_cant": "all points; requires primality of p and correctness of the square root.", "anchors": ["neocore/Cryptography/ECCurve.py:ECPoint.Serialize", "neocore/Cryptography/ECCurve.py:ECDSA.Deserialize_Secp256r1", "neocore/Cryptography/ECCurve.py:ECPoint.Size", "neocore/Cryptography/ECCurve.py:ECPoint.encode_point", "neocore/Cryptography/ECCurve.py:EllipticCurve.decompress_from_curve"]}
{"id": "C99", "title": "Public key comparison is a partial order", "statement": "<= on points is reflexive, transitive and antisymmetric; < is <= without ==; > and >= are the converses; two different points are comparable exactly when their x coordinates differ.", "quantifier": "all triples of points with reduced coordinates", "why_tests_cant": "quantifies over triples of points.", "anchors": ["neocore/Cryptography/ECCurve.py:ECPoint.__lt__", "neocore/Cryptography/ECCurve.py:ECPoint.__gt__", "neocore/Cryptography/ECCurve.py:ECPoint.__le__", "neocore/Cryptography/ECCurve.py:ECPoint.__ge__"]}
{"id": "C100", "title": "A leaked or repeated nonce gives the private key", "statement": "crack1 recovers the private key from a signature made by sign and its nonce; crack2 recovers nonce and key from the two values returned by sign for two messages with one nonce, whenever the divisors are not multiples of the order.", "quantifier": "all prime orders, keys, nonces and messages", "why_tests_cant": "algebra over all values.", "anchors": ["neocore/Cryptography/ECCurve.py:ECDSA.crack1", "neocore/Cryptography/ECCurve.py:ECDSA.crack2", "neocore/Cryptography/ECCurve.py:ECDSA.sign"]}
{"id": "C101", "title": "BigInteger bytes are two's complement", "statement": "ToByteArray(signed=True) is a nonempty two's complement little-endian form of the value, at most one byte longer than the shortest one, and the shortest one for every value >= 0.", "quantifier": "all integers", "why_tests_cant": "sign-bit boundaries occur at every byte length.", "anchors": ["neocore/BigInteger.py:BigInteger.ToByteArray"]}
{"id": "C102", "title": "NEP-2 import returns only keys of the stored address", "statement": "If PrivateKeyFromNEP2(text, pw) returns k, then the text has 58 characters and a right Base58 checksum, k is a 32-byte key with number in 1..n-1, and the double SHA-256 of the address of its public key begins with the 4 address-hash bytes in the text.", "quantifier": "all texts and passphrases", "why_tests_cant": "all malformed records and wrong passphrases.", "anchors": ["neocore/KeyPair.py:KeyPair.PrivateKeyFromNEP2"]}
{"id": "C103", "title": "Merkle root binds lists of one length", "statement": "From two different lists of equal length with the same root one gets two different strings, hashed while computing the two roots, with the same double hash.", "quantifier": "all pairs of lists of equal length, every hash function", "why_tests_cant": "needs reasoning over all pairs of lists.", "anchors": ["neocore/Cryptography/MerkleTree.py:MerkleTree.ComputeRoot"]}
{"id": "C104", "title": "NEP-2 round trip of every valid private key", "statement": "For every 32-byte private key with number in 1..n-1 and every passphrase of at least two characters, ExportNEP2 gives a 58-character text from which PrivateKeyFromNEP2 with the same passphrase returns the key; shorter passphrases raise ValueError.", "quantifier": "all private keys 1..n-1, all passphrases", "why_tests_cant": "all keys and passphrases; scrypt/AES treated by contract.", "anchors": ["neocore/KeyPair.py:KeyPair.ExportNEP2", "neocore/KeyPair.py:KeyPair.PrivateKeyFromNEP2", "neocore/Cryptography/Helper.py:xor_bytes"]}
{"id": "C105", "title": "Negation and subtraction of finite points", "statement": "For a finite point Q of a curve, -Q is its group inverse and P - Q = P + (-Q) for every point P, with results on the curve; Q - Q is Infinity and Infinity - Q is -Q.", "quantifier": "all proper curves over primes, all points P, all finite Q", "why_tests_cant": "special points (2-torsion).", "anchors": ["neocore/Cryptography/ECCurve.py:EllipticCurve.neg", "neocore/Cryptography/ECCurve.py:EllipticCurve.sub"]}
{"id": "C106", "title": "Floats are rounded to the nearest binary32 number", "statement": "WriteFloat of a finite Python float of magnitude below 2^128 - 2^103 appends four bytes from which ReadFloat (same byte order) returns the binary32 number nearest to it, ties to even, with the same sign (also of zero); a number binary32 can hold, an infinity and a NaN come back as they were; a larger finite float raises OverflowError and nothing is written.", "quantifier": "all floats, both byte orders, all streams", "why_tests_cant": "2^64 floats; ties, subnormals, signed zeros and the overflow threshold are corner cases.", "anchors": ["neocore/IO/BinaryWriter.py:BinaryWriter.WriteFloat", "neocore/IO/BinaryReader.py:BinaryReader.ReadFloat"]}
{"id": "C107", "title": "Bytes read as a float or double are written back unchanged", "statement": "Whatever four (eight) bytes ReadFloat (ReadDouble) turned into a number that is no NaN, WriteFloat (WriteDouble) of that number in the same byte order appends the same bytes.", "quantifier": "all 2^32 and 2^64 byte patterns, both byte orders", "why_tests_cant": "needs every pattern, with subnormals, infinities and signed zeros.", "anchors": ["neocore/IO/BinaryWriter.py:BinaryWriter.WriteFloat", "neocore/IO/BinaryWriter.py:BinaryWriter.WriteDouble", "neocore/IO/BinaryReader.py:BinaryReader.ReadFloat", "neocore/IO/BinaryReader.py:BinaryReader.ReadDouble"]}
{"id": "C108", "title": "Doubles survive serialisation", "statement": "Every Python float survives WriteDouble then ReadDouble unchanged: all finite floats with their sign, subnormals, both zeros, both infinities; a NaN is read back as a NaN.", "quantifier": "all floats, both byte orders, all streams", "why_tests_cant": "2^64 floats.", "anchors": ["neocore/IO/BinaryWriter.py:BinaryWriter.WriteDouble", "neocore/IO/BinaryReader.py:BinaryReader.ReadDouble"]}
{"id": "C109", "title": "WriteDouble accepts ints", "statement": "WriteDouble of an int is read back as the nearest binary64 number, ties to even (exactly for magnitudes up to 2^53); an int of magnitude from 2^1024 - 2^970, and an object that is no number, raise struct.error and nothing is written.", "quantifier": "all ints, both byte orders, all streams", "why_tests_cant": "all ints, with the rounding boundary.", "anchors": ["neocore/IO/BinaryWriter.py:BinaryWriter.WriteDouble", "neocore/IO/BinaryReader.py:BinaryReader.ReadDouble"]}
{"id": "C110", "title": "WriteFloat accepts ints", "statement": "WriteFloat of an int below 2^128 - 2^103 in magnitude is read back as the nearest binary32 number, ties to even; an object that is no number raises struct.error and nothing is written.", "quantifier": "all ints, both byte orders, all streams", "why_tests_cant": "all ints, with the rounding boundary.", "anchors": ["neocore/IO/BinaryWriter.py:BinaryWriter.WriteFloat", "neocore/IO/BinaryReader.py:BinaryReader.ReadFloat"]}
{"id": "C111", "title": "create_wallet makes a usable wallet", "statement": "For every 32 random bytes whose number is 1..n-1, create_wallet() returns the WIF of those bytes (52 characters, PrivateKeyFromWIF gives them back) and the valid address of their public key, the one KeyPair(...).GetAddress() computes again from the WIF; np-utils --create-wallet prints exactly these two. For every other draw no wallet is returned or printed.", "quantifier": "all 32-byte draws of the random generator, all states of the global curve", "why_tests_cant": "2^256 draws.", "anchors": ["neocore/bin/cli.py:create_wallet", "neocore/bin/cli.py:main", "neocore/KeyPair.py:KeyPair.Export", "neocore/KeyPair.py:KeyPair.GetAddress"]}
{"id": "C112", "title": "Address version setting", "statement": "With ADDRESS_VERSION set to any byte value the address of a script hash is the Base58Check text of that version byte and the hash, and address_to_scripthash gives the hash back; different (version, hash) pairs have different addresses; 23 is the default; values outside 0..255 raise ValueError.", "quantifier": "all version settings, all script hashes", "why_tests_cant": "256 settings times all hashes; injectivity is about pairs.", "anchors": ["neocore/Cryptography/Helper.py:scripthash_to_address", "neocore/bin/cli.py:address_to_scripthash"]}
{"id": "C113", "title": "np-utils conversions compose", "statement": "np-utils --address-to-scripthash of any address prints the script hash in big-endian hex, little-endian hex and as a Python bytes literal with that value, and exits normally; feeding either hex text to np-utils --scripthash-to-address prints that address.", "quantifier": "all script hashes of twenty bytes", "why_tests_cant": "2^160 script hashes, and every escape in the bytes literal.", "anchors": ["neocore/bin/cli.py:main", "neocore/bin/cli.py:address_to_scripthash", "neocore/bin/cli.py:scripthash_to_address"]}
{"id": "C114", "title": "np-utils --scripthash-to-address always ends cleanly", "statement": "For every argument text np-utils --scripthash-to-address either prints the address of the script hash it writes and exits normally, or prints \"Wrong format\" last and exits with status 1; it never ends in a traceback.", "quantifier": "all argument texts", "why_tests_cant": "all texts.", "anchors": ["neocore/bin/cli.py:main", "neocore/bin/cli.py:scripthash_to_address"]}
{"id": "C115", "title": "np-utils --address-to-scripthash always ends cleanly", "statement": "For every argument text np-utils --address-to-scripthash either prints three lines and exits normally, or prints a message and exits with status 1; it never ends in a traceback.", "quantifier": "all argument texts", "why_tests_cant": "all texts.", "anchors": ["neocore/bin/cli.py:main", "neocore/bin/cli.py:address_to_scripthash"]}
{"id": "C116", "title": "Field operators with mixed operands", "statement": "For every value v of a FiniteField with positive modulus p and every int, even-length hexadecimal text or field value x standing for the integer n, v+x, v-x, v*x (and x+v, x-v, x*v, v**x for n >= 0, x**v for v's integer >= 0) are reduced values of v's field congruent to the sum, difference, product or power; a text that is not hexadecimal raises on either side; the field's own methods answer False when given values of two different fields.", "quantifier": "all positive moduli, all integers including negative and unreduced ones, all texts, all pairs of fields", "why_tests_cant": "infinitely many operand combinations.", "anchors": ["neocore/Cryptography/ECCurve.py:FiniteField.Value", "neocore/Cryptography/ECCurve.py:FiniteField.add", "neocore/Cryptography/ECCurve.py:FiniteField.pow", "neocore/Cryptography/ECCurve.py:FiniteField.integer"]}
{"id": "C117", "title": "Division with ints and field values on either side", "statement": "For every field value v and every x standing for an integer coprime to the modulus, v / x and x / v are the field quotients and v.inverse() is the inverse of v.", "quantifier": "all moduli, all values, all operands coprime to the modulus", "why_tests_cant": "infinitely many operand combinations.", "anchors": ["neocore/Cryptography/ECCurve.py:FiniteField.Value", "neocore/Cryptography/ECCurve.py:FiniteField.div", "neocore/Cryptography/ECCurve.py:FiniteField.inverse"]}
{"id": "C118", "title": "iszero tells whether a field value is zero", "statement": "For every field value v, v.iszero() is true exactly if v == 0.", "quantifier": "all moduli, all values, reduced or not", "why_tests_cant": "infinitely many values.", "anchors": ["neocore/Cryptography/ECCurve.py:FiniteField.Value"]}
{"id": "C119", "title": "The text of a field value is its hexadecimal numeral", "statement": "For every field value v with a non-negative integer, str(v) is 0x followed by hexadecimal digits that write that integer.", "quantifier": "all values", "why_tests_cant": "infinitely many values.", "anchors": ["neocore/Cryptography/ECCurve.py:FiniteField.Value", "neocore/Cryptography/ECCurve.py:FiniteField.str"]}
{"id": "C120", "title": "Equality of a field value is congruence", "statement": "For every field value v and every int, hexadecimal text or field value x standing for n, v == x is true exactly if v's integer and n are congruent modulo v's modulus, and v != x is its negation.", "quantifier": "all positive moduli, all values, all operands", "why_tests_cant": "infinitely many operand combinations.", "anchors": ["neocore/Cryptography/ECCurve.py:FiniteField.Value", "neocore/Cryptography/ECCurve.py:FiniteField.eq"]}
{"id": "C121", "title": "Equality of field values is an equivalence", "statement": "For all field values, == is reflexive, symmetric and transitive.", "quantifier": "all pairs and triples of field values, of one or several fields", "why_tests_cant": "all triples of values.", "anchors": ["neocore/Cryptography/ECCurve.py:FiniteField.Value", "neocore/Cryptography/ECCurve.py:FiniteField.eq"]}
{"id": "C122", "title": "Different scalars give different multiples", "statement": "For every finite point P of secp256r1, in particular the base point, and all scalars 0 <= m < n < the group order, P * m and P * n are different points; so calcpub gives different private keys different public keys.", "quantifier": "all points, all pairs of scalars below the group order", "why_tests_cant": "about 2^512 pairs of scalars.", "anchors": ["neocore/Cryptography/ECCurve.py:EllipticCurve.mul", "neocore/Cryptography/ECCurve.py:ECDSA.calcpub"]}
{"id": "C123", "title": "Negative scalars give the negative multiple", "statement": "For every point P of the curve and every int n, P * -n equals -(P * n).", "quantifier": "all points, all ints", "why_tests_cant": "infinitely many scalars.", "anchors": ["neocore/Cryptography/ECCurve.py:EllipticCurve.mul", "neocore/Cryptography/ECCurve.py:EllipticCurve.neg"]}
{"id": "C124", "title": "A multiple of a finite point is a finite point", "statement": "For every finite point P of secp256r1 and every n with 0 < |n| <= 2^256, P * n returns, and the result is a finite point of the curve; in particular calcpub of every non-zero 32-byte private key is a point of the curve and not Infinity.", "quantifier": "all finite points of the curve, all scalars up to 2^256", "why_tests_cant": "about 2^512 combinations; the result depends on float rounding inside the multiplication.", "anchors": ["neocore/Cryptography/ECCurve.py:EllipticCurve.mul", "neocore/Cryptography/ECCurve.py:ECDSA.calcpub", "neocore/Cryptography/ECCurve.py:EllipticCurve.isoncurve"]}
{"id": "C125", "title": "Private and public keys correspond one to one", "statement": "KeyPair of different 32-byte private keys never gives the same PublicKey, and every point of secp256r1 is the PublicKey of exactly one 32-byte private key, which is 0 exactly for Infinity.", "quantifier": "all pairs of 32-byte keys, all points of the curve", "why_tests_cant": "about 2^512 pairs.", "anchors": ["neocore/KeyPair.py:KeyPair.__init__", "neocore/KeyPair.py:KeyPair.setup_curve"]}
{"id": "C126", "title": "Division of a point undoes multiplication", "statement": "For every finite point P of a curve whose group has prime order n and every a not divisible by n, given as an int or as a value of FiniteField(n), P / a is the point Q of which P is the a-fold sum.", "quantifier": "all points, all divisors", "why_tests_cant": "infinitely many divisors and about 2^256 points.", "anchors": ["neocore/Cryptography/ECCurve.py:EllipticCurve.div", "neocore/Cryptography/ECCurve.py:EllipticCurve.ECPoint"]}
{"id": "C127", "title": "Public keys are recovered from signatures", "statement": "For every message, private key and nonce, findpk applied to the message and the signature sign returns gives, with the right flag, the signer's public key; findpk2 gives it from two signatures of the same message.", "quantifier": "all messages, private keys, nonces", "why_tests_cant": "about 2^768 combinations.", "anchors": ["neocore/Cryptography/ECCurve.py:ECDSA.findpk", "neocore/Cryptography/ECCurve.py:ECDSA.findpk2", "neocore/Cryptography/ECCurve.py:ECDSA.sign"]}
{"id": "C128", "title": "The text of a point determines it", "statement": "For all points P and Q, str(P) = str(Q) exactly if P and Q have the same integer coordinates.", "quantifier": "all pairs of integer coordinates", "why_tests_cant": "infinitely many points.", "anchors": ["neocore/Cryptography/ECCurve.py:EllipticCurve.ECPoint", "neocore/Cryptography/ECCurve.py:FiniteField.Value"]}
{"id": "C129", "title": "Every fixed-width byte pattern is one integer", "statement": "For each of the eight fixed-width integer formats and each byte order, every byte string of that width is read as the in-range value whose two's complement it is, and writing that value gives the same bytes; with fewer bytes left the read raises struct.error and stands at the end of the stream.", "quantifier": "all byte strings of each width, all streams", "why_tests_cant": "2^64 byte patterns for the widest format; any stream may surround them.", "anchors": ["neocore/IO/BinaryReader.py:BinaryReader.ReadInt8", "neocore/IO/BinaryReader.py:BinaryReader.ReadUInt64", "neocore/IO/BinaryReader.py:BinaryReader.unpack", "neocore/IO/BinaryWriter.py:BinaryWriter.pack"]}
{"id": "C130", "title": "ReadVarInt decodes every stream", "statement": "For every stream and every max >= 0, ReadVarInt(max) returns the variable-length integer at the position (0 if nothing is left) and moves exactly past it if it is at most max; if it is larger it raises, positioned behind it; if the data ends inside it, it raises struct.error, positioned at the end.", "quantifier": "all streams, positions and bounds", "why_tests_cant": "arbitrary streams from untrusted peers.", "anchors": ["neocore/IO/BinaryReader.py:BinaryReader.ReadVarInt"]}
{"id": "C131", "title": "WriteVarInt's effect is determined for every argument", "statement": "Whatever object WriteVarInt is given, exactly one of these happens, and earlier bytes never change: no integer -> TypeError, stream untouched; negative -> exception, stream untouched; BigInteger or bool below 0xfd -> returns, nothing written; other integers below 2^64 -> exactly the bytes that decode to that number; 2^64 and above -> struct.error and one byte 0xff left behind.", "quantifier": "all Python arguments, all earlier contents of the stream, both byte orders", "why_tests_cant": "unbounded integers and arbitrary objects.", "anchors": ["neocore/IO/BinaryWriter.py:BinaryWriter.WriteVarInt", "neocore/IO/BinaryWriter.py:BinaryWriter.WriteByte"]}
{"id": "C132", "title": "Truncated records are refused", "statement": "If a stream ends anywhere strictly inside the bytes that were written for a record, reading the record raises.", "quantifier": "all record types, values and truncation points", "why_tests_cant": "every truncation point of every record.", "anchors": ["neocore/IO/BinaryReader.py:BinaryReader.ReadVarBytes", "neocore/IO/BinaryReader.py:BinaryReader.ReadFixedString", "neocore/IO/BinaryReader.py:BinaryReader.unpack", "neocore/IO/BinaryReader.py:BinaryReader.ReadHashes"]}
{"id": "C133", "title": "Truncated strings and lengths are refused", "statement": "If a stream ends after at least one byte but strictly inside what WriteVarString or WriteVarInt wrote, ReadVarString resp. ReadVarInt raises.", "quantifier": "all strings and numbers, all truncation points after the first byte", "why_tests_cant": "every truncation point of every string.", "anchors": ["neocore/IO/BinaryReader.py:BinaryReader.ReadVarString", "neocore/IO/BinaryReader.py:BinaryReader.ReadVarInt"]}
{"id": "C134", "title": "Reading then writing gives the same bytes", "statement": "Whatever bytes a reader method accepted for a value, the matching writer method writes that value as the same bytes, so the encoding of each value is unique (no malleability).", "quantifier": "all byte strings accepted by ReadVarInt, ReadBool and the fixed-width reads", "why_tests_cant": "arbitrary streams from untrusted peers.", "anchors": ["neocore/IO/BinaryReader.py:BinaryReader.ReadVarInt", "neocore/IO/BinaryReader.py:BinaryReader.ReadBool", "neocore/IO/BinaryWriter.py:BinaryWriter.WriteVarInt", "neocore/IO/BinaryWriter.py:BinaryWriter.WriteBool"]}
{"id": "C135", "title": "Encodings of records are uniquely decodable", "statement": "For any two records of one type (any nesting of fields and arrays, raw hash contents that are not ASCII hex text), if the encoding of one is a prefix of the encoding of the other then the records are equal.", "quantifier": "all record types, all pairs of values", "why_tests_cant": "unbounded nesting and lengths.", "anchors": ["neocore/IO/BinaryWriter.py:BinaryWriter", "neocore/IO/BinaryReader.py:BinaryReader"]}
{"id": "C136", "title": "Records without raw hashes survive serialisation", "statement": "Every record made of fixed-width integers, variable-length integers up to sys.maxsize, byte strings, strings, bools, chars, doubles, Fixed8 amounts and arrays of such records, nested in any way, is read back exactly by the same sequence of methods, which ends where the writing ended; no other record of the type has an encoding that begins with its encoding or that its encoding begins with.", "quantifier": "all record types and values, no bound on nesting or length", "why_tests_cant": "unbounded nesting and lengths.", "anchors": ["neocore/IO/BinaryWriter.py:BinaryWriter", "neocore/IO/BinaryReader.py:BinaryReader"]}
{"id": "C137", "title": "A signature cannot be changed into another one", "statement": "If VerifySignature accepts a 64-byte signature of a message under a key, it accepts no other signature with the same first 32 bytes (r) for that message and key.", "quantifier": "all messages, keys, and pairs of 64-byte signatures with one r", "why_tests_cant": "Ranges over all accepted signatures; needs the group law.", "anchors": ["neocore/Cryptography/Crypto.py:VerifySignature"]}
{"id": "C138", "title": "The form of a message does not matter", "statement": "VerifySignature gives the same answer for a message given as hexadecimal text (str, bytes or bytearray, digits in any case) with unhex=True and as raw bytes with unhex=False, and for a str and its UTF-8 bytes with unhex=False; Sign gives the same signature for all hexadecimal forms of a message, and raises for every message that is not hexadecimal.", "quantifier": "all messages in all forms, signatures, keys, process states", "why_tests_cant": "An equality of two programs on all inputs.", "anchors": ["neocore/Cryptography/Crypto.py:VerifySignature", "neocore/Cryptography/Crypto.py:Sign"]}
{"id": "C139", "title": "Nonces are not reused", "statement": "Sign is deterministic, and two calls of Sign with different messages or different private keys use the same nonce only if two different strings hashed in the process have the same SHA-256 hash. (A reused nonce gives the private key away, C100.)", "quantifier": "all pairs of messages and of 32-byte private keys", "why_tests_cant": "Reduction to a hash collision; nothing a test could sample.", "anchors": ["neocore/Cryptography/Crypto.py:Sign"]}
{"id": "C140", "title": "Different private keys have different addresses", "statement": "If two different 32-byte private keys gave key pairs with the same address, their two scripts (21, compressed key, ac) would be different and have the same RIPEMD-160 of SHA-256: a hash collision.", "quantifier": "all pairs of private keys, all hash functions", "why_tests_cant": "Reduction to a hash collision over all pairs of keys; needs injectivity of key derivation, point encoding and Base58Check.", "anchors": ["neocore/KeyPair.py:KeyPair", "neocore/KeyPair.py:KeyPair.GetAddress", "neocore/Cryptography/Crypto.py:Crypto.ToAddress"]}
{"id": "C141", "title": "Every WIF that imports is a usable wallet", "statement": "If PrivateKeyFromWIF(w) returns a key k, then KeyPair(k) succeeds and its GetAddress() returns an address.", "quantifier": "all texts accepted by PrivateKeyFromWIF", "why_tests_cant": "Exceptional keys (0, and numbers from the group order on) are one in 2^32 of all keys or fewer; random tests never meet them.", "anchors": ["neocore/KeyPair.py:KeyPair.PrivateKeyFromWIF", "neocore/KeyPair.py:KeyPair", "neocore/KeyPair.py:KeyPair.GetAddress"]}
{"id": "C142", "title": "Canonically equivalent passphrases are interchangeable", "statement": "Two passphrases with the same Unicode normal form NFC behave alike: ExportNEP2 gives the same result (or raises) for both, and PrivateKeyFromNEP2 gives the same result (or raises) for both.", "quantifier": "all pairs of passphrases with one normal form, all keys and texts", "why_tests_cant": "All pairs of equivalent texts.", "anchors": ["neocore/KeyPair.py:KeyPair.ExportNEP2", "neocore/KeyPair.py:KeyPair.PrivateKeyFromNEP2"]}
{"id": "C143", "title": "A wrong passphrase is noticed up to the four bytes stored", "statement": "If a NEP-2 text exported from a wallet is opened with any other passphrase and PrivateKeyFromNEP2 returns a key, this is a valid private key whose address agrees with the exported wallet's in the first four bytes of the double SHA-256.", "quantifier": "all wallets, all pairs of passphrases", "why_tests_cant": "The interesting cases have probability 2^-32; the claim is about each of them.", "anchors": ["neocore/KeyPair.py:KeyPair.PrivateKeyFromNEP2", "neocore/KeyPair.py:KeyPair.ExportNEP2"]}
{"id": "C144", "title": "A key pair's public key belongs to its private key", "statement": "For every KeyPair that can be constructed, PublicKey is PrivateKey (as a number) times the base point.", "quantifier": "all byte strings KeyPair accepts (32, 96 and 104 bytes)", "why_tests_cant": "All keys, and all embedded public keys.", "anchors": ["neocore/KeyPair.py:KeyPair"]}
{"id": "C145", "title": "Wallet operations do not depend on what the process did before", "statement": "KeyPair(k), Export(), PrivateKeyFromNEP2 and the CLI's create_wallet return the same value, or raise the same exception, in every state of the process: whatever curve was set in the bitcoin package, and whether or not Crypto was used.", "quantifier": "all keys, texts, passphrases, and all pairs of process states", "why_tests_cant": "All histories of a process.", "anchors": ["neocore/KeyPair.py:KeyPair", "neocore/KeyPair.py:KeyPair.Export", "neocore/KeyPair.py:KeyPair.PrivateKeyFromNEP2", "neocore/bin/cli.py:create_wallet"]}
{"id": "C146", "title": "Exporting a wallet as WIF and importing it gives the same wallet", "statement": "For every KeyPair, KeyPair(PrivateKeyFromWIF(Export())) has the same private key, public key and public key hash.", "quantifier": "all byte strings KeyPair accepts, all process states", "why_tests_cant": "All keys; the failing ones need an embedded public key of another private key.", "anchors": ["neocore/KeyPair.py:KeyPair.Export", "neocore/KeyPair.py:KeyPair.PrivateKeyFromWIF", "neocore/KeyPair.py:KeyPair"]}
{"id": "C147", "title": "Floor, Ceil and int() of any amount are next to the exact ones", "statement": "For every 64-bit amount v (in satoshis): Floor is a whole number of units above v-1 unit and at most 763 satoshis above v; Ceil mirrors it (Ceil(-v) = -Floor(v)); ToInt lies between v and 0 up to 763 satoshis and is less than a unit from v; whole amounts are exact; and all three are monotone.", "quantifier": "all amounts of absolute value up to 2^63", "why_tests_cant": "2^64 amounts; the rounding errors of the float division lie far from what tests sample.", "anchors": ["neocore/Fixed8.py:Fixed8.Floor", "neocore/Fixed8.py:Fixed8.Ceil", "neocore/Fixed8.py:Fixed8.ToInt"]}
{"id": "C148", "title": "Division of amounts: error bound and monotonicity", "statement": "For every 64-bit amount a and every nonzero b, a / b (as implemented, on the raw satoshis) is less than 1 + 1024/|b| satoshis from the quotient of the raw values; it is monotone in a for b > 0 and odd in each argument.", "quantifier": "all amounts of absolute value up to 2^63 and all nonzero divisors of any size", "why_tests_cant": "All pairs of amounts.", "anchors": ["neocore/Fixed8.py:Fixed8.__truediv__"]}
{"id": "C149", "title": "BigInteger arithmetic stays in BigInteger", "statement": "Every unary operator (-x, +x, ~x, abs) of a BigInteger, divmod, and every arithmetic, shift, power or bitwise operator between a BigInteger and an int, a bool or a BigInteger, on whichever side it stands, gives a BigInteger with the value of the same operator on the plain ints (floor division for /), or raises the same exception.", "quantifier": "all operators, all pairs of operands with a BigInteger among them", "why_tests_cant": "All pairs of integers of any size.", "anchors": ["neocore/BigInteger.py:BigInteger"]}
{"id": "C150", "title": "BigInteger.Equals is equality", "statement": "a.Equals(b) is true for a BigInteger a if and only if b is an integer with the same value.", "quantifier": "all BigIntegers and all objects", "why_tests_cant": "All pairs.", "anchors": ["neocore/BigInteger.py:BigInteger.Equals"]}
{"id": "C151", "title": "Comparing with == never raises", "statement": "x == y returns a bool for all objects x and y (None, ints, texts, byte strings, UInts, Fixed8 amounts, points), the same as y == x, and False for objects of different classes that have no common notion of value.", "quantifier": "all pairs of objects", "why_tests_cant": "All pairs of objects of all classes.", "anchors": ["neocore/Fixed8.py:Fixed8.__eq__", "neocore/Cryptography/ECCurve.py:ECPoint.__eq__", "neocore/UIntBase.py:UIntBase.__eq__"]}
{"id": "C152", "title": "FromDecimal of any float", "statement": "FromDecimal(x) of a float x is less than 1 + 2^-53 * |x*10^8| satoshis from x*10^8, exact if x*10^8 is a whole number up to 2^53, monotone and odd; it raises only for nan (ValueError), infinities and x*10^8 beyond the floats (OverflowError).", "quantifier": "all floats", "why_tests_cant": "2^64 floats; the rounding of the product is what matters.", "anchors": ["neocore/Fixed8.py:Fixed8.FromDecimal"]}
{"id": "C153", "title": "Merkle branches prove membership", "statement": "In a tree made of a list of hashes, the Parent links lead from every leaf to the root in Depth-1 steps, and hashing the leaf's hash with its siblings' on the way gives the root hash. Conversely a branch of that many steps from any hash to the root hash proves that the hash is in the list (and, if the sides are those of position i, that it is the i-th), unless two different strings with the same hash have been found.", "quantifier": "all lists of hashes, all positions, all branches, any hash function of fixed output length", "why_tests_cant": "All lists and all candidate branches; the converse is a reduction to a hash collision.", "anchors": ["neocore/Cryptography/MerkleTree.py:MerkleTree", "neocore/Cryptography/MerkleTree.py:MerkleTreeNode"]}
{"id": "C154", "title": "The root of a concatenation is the hash of the roots", "statement": "If xs has 2^k hashes and ys more than 2^(k-1) and at most 2^k, ComputeRoot(xs + ys) is the hash of ComputeRoot(xs) followed by ComputeRoot(ys).", "quantifier": "all lists of these lengths, any hash function", "why_tests_cant": "All lengths.", "anchors": ["neocore/Cryptography/MerkleTree.py:MerkleTree.ComputeRoot"]}
{"id": "C155", "title": "GCD and modinv return for all integers", "statement": "GCD(a, b) and modinv(x, m) return a result for all integers, without exhausting the recursion limit of the interpreter.", "quantifier": "all integers of any size, every recursion limit", "why_tests_cant": "The depth grows with the operands; the worst cases are Fibonacci numbers no test would try.", "anchors": ["neocore/Cryptography/ECCurve.py:GCD", "neocore/Cryptography/ECCurve.py:modinv"]}
{"id": "C156", "title": "TryParse reads back the text of an amount", "statement": "Writing an amount with ToString (str) or ToNeoJsonString and reading the text back with TryParse gives the amount that was written; with require_positive the text of a negative amount gives None.", "quantifier": "every 64-bit amount, both texts, with and without require_positive", "why_tests_cant": "whether the float detour of both conversions loses a satoshi depends on the individual amount among 2^64; samples miss the amounts that lose one", "anchors": ["neocore/Fixed8.py:ToString", "neocore/Fixed8.py:ToNeoJsonString", "neocore/Fixed8.py:TryParse"]}
{"id": "C157", "title": "FromDecimal reads back the text of an amount through Decimal", "statement": "For amounts below 2^26 units, FromDecimal(Decimal(text)) of the text ToString (or ToNeoJsonString) gives for an amount is exactly that amount.", "quantifier": "every amount of magnitude below 67108864 units, both texts", "why_tests_cant": "every one of 10^16 amounts must be the shortest decimal of its nearest float", "anchors": ["neocore/Fixed8.py:ToString", "neocore/Fixed8.py:ToNeoJsonString", "neocore/Fixed8.py:FromDecimal"]}
{"id": "C158", "title": "Threads that have set the curve do not disturb each other", "statement": "In a process with several threads, every call that sets the curve itself (KeyPair, SetupSignatureCurve, Crypto.Default, Export, create_wallet, PrivateKeyFromNEP2), and every Sign or VerifySignature in a thread that has made such a call before, other than PrivateKeyFromNEP2 which may raise before setting it (or in any thread, if the curve was set before the threads started), returns or raises exactly what it does in a process with one thread; and every call of a thread that keeps being scheduled ends.", "quantifier": "any number of threads, any sequences of calls with any arguments, every interleaving of the accesses to the shared module variables", "why_tests_cant": "The interleavings of two threads alone are unbounded in number, and a race shows in almost no run of a test.", "anchors": ["neocore/Cryptography/Crypto.py:Crypto.SetupSignatureCurve", "neocore/Cryptography/Crypto.py:Crypto.Default", "neocore/Cryptography/Crypto.py:Crypto.Sign", "neocore/Cryptography/Crypto.py:Crypto.VerifySignature", "neocore/KeyPair.py:KeyPair.__init__", "neocore/KeyPair.py:KeyPair.Export", "neocore/KeyPair.py:KeyPair.PrivateKeyFromNEP2"]}
{"id": "C159", "title": "A signature uses the parameters of one curve in every interleaving", "statement": "However the threads of a process are scheduled, each Sign or VerifySignature computes with the parameters of one curve, never with some parameters of one curve and the rest of another.", "quantifier": "any number of threads, any sequences of calls, every interleaving", "why_tests_cant": "The window is a few bytecode instructions wide; no test can enumerate the schedules.", "anchors": ["neocore/Cryptography/Crypto.py:Crypto.SetupSignatureCurve", "neocore/Cryptography/Crypto.py:Crypto.Sign", "neocore/Cryptography/Crypto.py:Crypto.VerifySignature", "neocore/KeyPair.py:KeyPair.__init__"]}
{"id": "C160", "title": "What a writer writes does not depend on where it writes", "statement": "Any program that only calls BinaryWriter methods, whichever it calls depending on what it has been returned, writes the same bytes, returns the same values and raises the same errors on every stream at every position; the bytes replace those at the position, everything else stays. So a record can be patched in place by one of the same size.", "quantifier": "all programs over the writer methods, all arguments, all stream contents and positions", "why_tests_cant": "Programs, contents and positions are unbounded.", "anchors": ["neocore/IO/BinaryWriter.py:BinaryWriter"]}
{"id": "C161", "title": "What a reader returns depends only on the bytes it passes over", "statement": "Any program that only calls BinaryReader methods returns the same, and moves by the same number of bytes, on every two streams that agree from the position on, whatever precedes it; and if it stopped before the end, whatever follows the bytes it passed over.", "quantifier": "all programs over the reader methods, all stream contents and positions", "why_tests_cant": "Programs, contents and positions are unbounded.", "anchors": ["neocore/IO/BinaryReader.py:BinaryReader"]}
{"id": "C162", "title": "A write that raises writes nothing", "statement": "A BinaryWriter call that raises leaves the stream as it was.", "quantifier": "all writer methods, all arguments of any type, all streams", "why_tests_cant": "All arguments of all types and all stream states.", "anchors": ["neocore/IO/BinaryWriter.py:BinaryWriter.WriteVarInt", "neocore/IO/BinaryWriter.py:BinaryWriter.WriteVarBytes", "neocore/IO/BinaryWriter.py:BinaryWriter.WriteHashes", "neocore/IO/BinaryWriter.py:BinaryWriter.Write2000256List", "neocore/IO/BinaryWriter.py:BinaryWriter.WriteVarString"]}
{"id": "C163", "title": "A read that raises can be repeated", "statement": "A BinaryReader call that raises leaves the position of the stream where it was, so that it can be repeated when more data has arrived.", "quantifier": "all reader methods, all streams and positions", "why_tests_cant": "All contents and positions.", "anchors": ["neocore/IO/BinaryReader.py:BinaryReader.unpack", "neocore/IO/BinaryReader.py:BinaryReader.SafeReadBytes", "neocore/IO/BinaryReader.py:BinaryReader.ReadVarInt", "neocore/IO/BinaryReader.py:BinaryReader.ReadUInt160", "neocore/IO/BinaryReader.py:BinaryReader.ReadUInt256"]}
{"id": "C164", "title": "WriteVarString writes text in any encoding", "statement": "WriteVarString(text, encoding) writes the length of the encoded text followed by the encoded text, which ReadVarString returns; WriteVarString(data, encoding) of bytes writes them as they are; a text the encoding cannot express raises and writes nothing.", "quantifier": "all encodings, all texts and byte strings", "why_tests_cant": "All texts and encodings.", "anchors": ["neocore/IO/BinaryWriter.py:BinaryWriter.WriteVarString", "neocore/IO/BinaryReader.py:BinaryReader.ReadVarString"]}
{"id": "C165", "title": "ReadHashes returns no hash the stream does not hold", "statement": "ReadHashes returns as many hashes as announced, each made of its own 32 bytes of the stream, or raises if the stream ends before.", "quantifier": "all streams and positions", "why_tests_cant": "All contents, announced counts and lengths.", "anchors": ["neocore/IO/BinaryReader.py:BinaryReader.ReadHashes"]}
{"id": "C166", "title": "A signature narrows its signer down to at most four public keys", "statement": "For every message and signature there are at most four public keys under which VerifySignature accepts; at most two unless r is so small that r + n is below the prime of the field. Not fewer: with every key that accepts there is a second one, which accepts too if it is a finite point with coordinates below n.", "quantifier": "all messages, signatures and public keys", "why_tests_cant": "All keys and signatures; the other keys have to be computed, no sample contains them.", "anchors": ["neocore/Cryptography/Crypto.py:Crypto.VerifySignature"]}
{"id": "C167", "title": "A dictionary with UInt keys is a map from contents to values", "statement": "After any history of creating UInt160/UInt256 objects, storing values under them and removing them, a look-up with any object returns the value stored last under an object of the same contents, however that was made, or nothing if it has been removed or never stored; and there is one entry per contents.", "quantifier": "all histories of any length that do not change the contents of keys while they are in the dictionary", "why_tests_cant": "Histories are unbounded and __eq__ and __hash__ have to agree in every state.", "anchors": ["neocore/UIntBase.py:UIntBase.__eq__", "neocore/UIntBase.py:UIntBase.__hash__", "neocore/UIntBase.py:UIntBase.__init__", "neocore/UIntBase.py:UIntBase.Deserialize"]}
{"id": "C168", "title": "Fixed8 amounts behave as values", "statement": "In every program of assignments to variables holding Fixed8 amounts - new amounts, copies x = y, operators x = y + z, in-place operators x += y (also -=, *=, /=, //=, %=), negation, Ceil and Floor - every variable shows at the end the amount it would have if variables held plain numbers: a running total never changes the amount it started from, and an assignment that raises changes nothing.", "quantifier": "all programs of any length, all amounts, all ways of sharing objects between variables", "why_tests_cant": "Programs and the sharing between variables are unbounded.", "anchors": ["neocore/Fixed8.py:Fixed8.__init__", "neocore/Fixed8.py:Fixed8.__iadd__", "neocore/Fixed8.py:Fixed8.__isub__", "neocore/Fixed8.py:Fixed8.__imul__", "neocore/Fixed8.py:Fixed8.__itruediv__", "neocore/Fixed8.py:Fixed8.__imod__", "neocore/Fixed8.py:Fixed8.__floordiv__", "neocore/Fixed8.py:Fixed8.__neg__"]}
{"id": "C169", "title": "Powers of amounts are amounts", "statement": "a ** b of Fixed8 amounts is an amount (a whole number of satoshis): the power of the raw values for b >= 0, its remainder on the side of the modulus if one is given; where that does not exist it raises.", "quantifier": "all amounts, exponents and moduli", "why_tests_cant": "All pairs and triples of integers.", "anchors": ["neocore/Fixed8.py:Fixed8.__pow__"]}
{"id": "C170", "title": "What a reader returns is no larger than the data it passes over", "statement": "The result of a BinaryReader call holds at most as many bytes (two characters of hexadecimal text per byte) and, for ReadHashes and ReadSerializableArray, at most as many items as the bytes the call passed over, so that a short message cannot make a node allocate a large amount of memory.", "quantifier": "all streams and positions, all methods and arguments, all classes of items", "why_tests_cant": "The count announced in a stream and the size of a stream are unbounded; tests use complete messages.", "anchors": ["neocore/IO/BinaryReader.py:BinaryReader.ReadHashes", "neocore/IO/BinaryReader.py:BinaryReader.ReadSerializableArray", "neocore/IO/BinaryReader.py:BinaryReader.ReadVarBytes", "neocore/IO/BinaryReader.py:BinaryReader.Read2000256List"]}
{"id": "C171", "title": "A NEP-2 text that imports is the one the wallet exports", "statement": "If PrivateKeyFromNEP2(s, p) returns k for a well-formed NEP-2 text s (header 0142e0) and p has at least two characters, KeyPair(k).ExportNEP2(p) returns s; and conversely for every 32-byte key. So no two well-formed texts import to one key under one passphrase.", "quantifier": "all texts, passphrases, keys and states of the process; all choices of the hash functions, scrypt and AES", "why_tests_cant": "It needs that AES decryption is one to one on all blocks and that nothing else of the text is ignored; tests try a few exported texts.", "anchors": ["neocore/KeyPair.py:KeyPair.PrivateKeyFromNEP2", "neocore/KeyPair.py:KeyPair.ExportNEP2", "neocore/Cryptography/Helper.py:xor_bytes"]}
{"id": "C172", "title": "random_key does not lose the randomness it draws", "statement": "Two calls of random_key that drew different bytes from os.urandom return different keys, unless SHA-256 of two different strings is the same; so do two calls with the same bytes that differ in exactly one of random number and time.", "quantifier": "all byte strings, random numbers and times drawn", "why_tests_cant": "The key is a hash of a concatenation of texts; that the texts can be told apart is a statement about all byte strings.", "anchors": ["neocore/Cryptography/Helper.py:random_key"]}
{"id": "C173", "title": "Any sequence of Trim calls leaves the whole tree or the root alone", "statement": "After any sequence of Trim calls on a constructed tree, none of which raises, the root, its hash and Depth are the same; if some call's flags begin with two zeros (missing flags are zeros) only the root is left and ToHashArray returns its hash alone, otherwise the tree is as constructed.", "quantifier": "all nonempty lists of hashes, all sequences of flags", "why_tests_cant": "Trees and call sequences are unbounded, and Trim mutates shared nodes; tests trim one small tree once.", "anchors": ["neocore/Cryptography/MerkleTree.py:MerkleTree.Trim", "neocore/Cryptography/MerkleTree.py:MerkleTree.ToHashArray"]}
{"id": "C174", "title": "Negation and the identity elements of a field", "statement": "For every value v of a FiniteField with positive modulus, -v is a value of the same field, v + -v and -v + v are the field's zero(), whose iszero() is true, -(-v) holds the integer of v, v - w is the same value as v + -w for every w of that field, and v plus zero() or times one(), on either side, is the reduced value of v.", "quantifier": "all moduli, all values, reduced or not", "why_tests_cant": "Moduli and values are unbounded; tests negate a few values.", "anchors": ["neocore/Cryptography/ECCurve.py:FiniteField.neg", "neocore/Cryptography/ECCurve.py:FiniteField.zero", "neocore/Cryptography/ECCurve.py:FiniteField.one"]}
{"id": "C175", "title": "Sorting hashes gives one ascending list", "statement": "sorted() of a list of UInt160 (or UInt256) values returns them in ascending order of their little-endian numbers, and the same list for every order of the input.", "quantifier": "all lists of values of one kind, all orders of each list, every stable sorting algorithm", "why_tests_cant": "Lists and their permutations are unbounded and the claim concerns all sorting algorithms; tests sort one short list.", "anchors": ["neocore/UIntBase.py:UIntBase.__lt__", "neocore/UIntBase.py:UIntBase.CompareTo"]}
{"id": "C176", "title": "Sorting public keys gives the same list for every order of the input", "statement": "sorted() of a list of points of secp256r1 returns the same list for every order of the input (so that all parties build the same multi-signature contract from the same keys).", "quantifier": "all lists of reduced points, all orders of each list, every stable sorting algorithm", "why_tests_cant": "Lists and their permutations are unbounded; tests compare two keys.", "anchors": ["neocore/Cryptography/ECCurve.py:EllipticCurve.ECPoint.__lt__"]}
{"id": "C177", "title": "Merkle trees are built, listed and trimmed within the recursion limit", "statement": "A tree of n >= 1 hashes is built with ceil(log2 n) + 1 nested calls and not with fewer; ToHashArray takes exactly as many and Trim no more. So no list that fits in memory reaches CPython's recursion limit of 1000.", "quantifier": "all non-empty lists of hashes, all flags, all recursion limits, every hash function", "why_tests_cant": "The number of hashes is unbounded; a test builds a few trees of a few leaves.", "anchors": ["neocore/Cryptography/MerkleTree.py:MerkleTree.__Build", "neocore/Cryptography/MerkleTree.py:MerkleTree.__DepthFirstSearch", "neocore/Cryptography/MerkleTree.py:MerkleTree._TrimNode"]}
{"id": "C178", "title": "Methods of a field value do what the functions of that name do", "statement": "v.sqrt(flag), v.inverse() and v.sqrtCQ(q) return what FiniteField.sqrt, modinv and sqrtCQ return for the integer of v.", "quantifier": "all field values, flags and moduli", "why_tests_cant": "All values and moduli; no test calls the methods.", "anchors": ["neocore/Cryptography/ECCurve.py:FiniteField.Value.sqrt", "neocore/Cryptography/ECCurve.py:FiniteField.Value.sqrtCQ", "neocore/Cryptography/ECCurve.py:FiniteField.Value.inverse"]}
{"id": "C179", "title": "Objects that can be compared can be hashed, equal ones alike", "statement": "hash(x) returns for every BigInteger, UInt, Fixed8 and ECPoint, and x == y implies hash(x) == hash(y), also between a BigInteger and an int or bool; so they can be members of sets and keys of dictionaries.", "quantifier": "all objects of these classes and of the built-in ones, all pairs, every hash seed", "why_tests_cant": "All values and all pairs of classes; tests hash one UInt.", "anchors": ["neocore/Fixed8.py:Fixed8.__eq__", "neocore/Cryptography/ECCurve.py:EllipticCurve.ECPoint.__eq__", "neocore/UIntBase.py:UIntBase.__hash__", "neocore/BigInteger.py:BigInteger"]}
{"id": "C180", "title": "An amount does not depend on the class of the integer it is made from", "statement": "Fixed8(BigInteger(v)) behaves like Fixed8(v): every operator, Ceil, Floor, ToInt and the text give the same amounts, whichever of the operands are made from BigIntegers.", "quantifier": "all integers, all pairs of operands, ints, bools and BigIntegers", "why_tests_cant": "All amounts and all mixtures of classes; the tests make amounts from ints only.", "anchors": ["neocore/Fixed8.py:Fixed8.Ceil", "neocore/Fixed8.py:Fixed8.ToInt", "neocore/Fixed8.py:Fixed8.ToString", "neocore/Fixed8.py:Fixed8.__truediv__", "neocore/BigInteger.py:BigInteger.__truediv__"]}
{"id": "C181", "title": "TryParse and FromDecimal agree on numbers", "statement": "For every int, float and Decimal x, TryParse(x) is the amount FromDecimal(x) is, or both raise.", "quantifier": "all ints, floats (nan and infinities included) and Decimals", "why_tests_cant": "All numbers; the two functions take different routes through floats.", "anchors": ["neocore/Fixed8.py:Fixed8.TryParse", "neocore/Fixed8.py:Fixed8.FromDecimal"]}
{"id": "C182", "title": "ReadSerializableArray reads the class its name says, and touches nothing for an unknown one", "statement": "ReadSerializableArray('module.Class') reads the array with the attribute Class of that absolute module; for every other name (no point, a relative or empty module, an unknown module or attribute) it raises before anything is read from the stream.", "quantifier": "all names, all sets of importable modules, all streams and positions", "why_tests_cant": "All texts as names; the tests know one class.", "anchors": ["neocore/IO/BinaryReader.py:BinaryReader.ReadSerializableArray"]}
{"id": "C183", "title": "Multiplying a point by n takes as many doublings as n has bits", "statement": "P * n always ends, and the number of rounds of its loop (one doubling, hence one modular inversion, each) is at most the number of bits of n.", "quantifier": "all curves, all points, all integers below 2^1025 - 2^971 (above, P * n raises OverflowError: C64)", "why_tests_cant": "A cost bound over all scalars; tests look at results only.", "anchors": ["neocore/Cryptography/ECCurve.py:EllipticCurve.mul", "neocore/Cryptography/ECCurve.py:EllipticCurve.ECPoint.__mul__"]}
{"id": "C184", "title": "A Merkle root takes about one hash per leaf", "statement": "ComputeRoot of n hashes calls Hash256 at least n - 1 times and fewer than n + ceil(log2 n) times.", "quantifier": "all non-empty lists of hashes, any hash function", "why_tests_cant": "A cost bound for every length; tests look at roots of a few short lists.", "anchors": ["neocore/Cryptography/MerkleTree.py:MerkleTree.ComputeRoot", "neocore/Cryptography/MerkleTree.py:MerkleTree.__Build"]}
{"id": "C185", "title": "Text that has no UTF-8 form is refused before anything is written", "statement": "WriteByte, WriteVarString and WriteFixedString of a text with a lone surrogate raise UnicodeEncodeError and leave the stream as it is; every other text is written as its UTF-8 bytes.", "quantifier": "all sequences of code points, all streams, all lengths", "why_tests_cant": "Any of 2048 code points anywhere in a text; tests use ASCII.", "anchors": ["neocore/IO/BinaryWriter.py:BinaryWriter.WriteByte", "neocore/IO/BinaryWriter.py:BinaryWriter.WriteVarString", "neocore/IO/BinaryWriter.py:BinaryWriter.WriteFixedString"]}
{"id": "C186", "title": "FromDecimal of a Decimal with at most 8 decimals is exact whatever its length", "statement": "FromDecimal(Decimal) of a Decimal that denotes a whole number v of satoshis is the amount v, however many digits it has.", "quantifier": "all finite Decimals with at most 8 decimals", "why_tests_cant": "Every coefficient and exponent; the loss starts at the 29th significant digit.", "anchors": ["neocore/Fixed8.py:Fixed8.FromDecimal"]}
{"id": "C187", "title": "Options of np-utils combine", "statement": "np-utils with several options prints and does what one call per option would, in the order --address-to-scripthash, --scripthash-to-address, --create-wallet, up to the first that does not end normally, and ends as that one does; without an option it prints nothing on standard output and exits with status 1.", "quantifier": "all combinations of the three options, all arguments, all random draws", "why_tests_cant": "Every pair of argument texts, valid or not; tests run one option at a time.", "anchors": ["neocore/bin/cli.py:main"]}
{"id": "C188", "title": "A signature is accepted for one message only", "statement": "Under one public key VerifySignature accepts a given signature only for messages that have one and the same SHA-256 digest (mod the group order).", "quantifier": "all keys (made by anyone), all signatures, all messages", "why_tests_cant": "Keys and signatures made for the purpose; a random pair of messages never shows it.", "anchors": ["neocore/Cryptography/Crypto.py:Crypto.VerifySignature"]}
{"id": "C189", "title": "The form of the public key does not matter for verification", "statement": "VerifySignature gives the same answer for a public key whether it is passed as a point, as the 64 bytes of its coordinates or as its 33-byte encoding, whatever message and signature are (the 33-byte form while the curve parameters of the bitcoin package are those of secp256r1).", "quantifier": "all public keys, messages and signatures, valid or not", "why_tests_cant": "2^256 keys; the 33-byte form goes through a square root whose sign must come out right.", "anchors": ["neocore/Cryptography/Crypto.py:Crypto.VerifySignature"]}
{"id": "C190", "title": "A Merkle tree's root stays the root of its hashes", "statement": "At any time after a MerkleTree was built, the hash of its root equals ComputeRoot of the present contents of the hash objects it was built from, whatever has been done to those objects (Deserialize, changing the array ToArray returned) in between.", "quantifier": "all lists of hash objects, all later programs", "why_tests_cant": "Histories of changes to shared objects; a test reads the root right after building.", "anchors": ["neocore/Cryptography/MerkleTree.py:MerkleTree.__init__", "neocore/Cryptography/MerkleTree.py:MerkleTree.__Build", "neocore/Cryptography/MerkleTree.py:MerkleTree.ComputeRoot", "neocore/UIntBase.py:UIntBase.Deserialize", "neocore/UIntBase.py:UIntBase.ToArray"]}
{"id": "C191", "title": "Lengths written in either byte order are read back", "statement": "WriteVarInt(v, endian) and WriteVarBytes(b, endian) document both byte orders; in either, ReadVarInt returns v and ReadVarBytes returns b, and each moves exactly past what was written.", "quantifier": "all values below 2^64, all byte strings, both byte orders, whatever precedes and follows", "why_tests_cant": "The one-byte form does not show the byte order; only values from 0xfd on do, and a test that reads to the end of the stream does not notice a length that is too large.", "anchors": ["neocore/IO/BinaryWriter.py:BinaryWriter.WriteVarInt", "neocore/IO/BinaryWriter.py:BinaryWriter.WriteVarBytes", "neocore/IO/BinaryReader.py:BinaryReader.ReadVarInt", "neocore/IO/BinaryReader.py:BinaryReader.ReadVarBytes"]}
{"id": "C192", "title": "encode_point puts coordinates in the byte order it is asked for", "statement": "P.encode_point(compressed, endian) holds the coordinates of P in the byte order that endian names ('little' or 'big'), and decode_from_hex of the result is P.", "quantifier": "all finite points of secp256r1 with reduced coordinates, both forms, both byte orders", "why_tests_cant": "Two wrong reversals cancel for the default; the other order is used by no test.", "anchors": ["neocore/Cryptography/ECCurve.py:EllipticCurve.ECPoint.encode_point", "neocore/Cryptography/ECCurve.py:EllipticCurve.decode_from_hex"]}
{"id": "C193", "title": "Floats and doubles are IEEE-754 words on the stream", "statement": "Four bytes are read by ReadFloat (eight by ReadDouble) as the IEEE-754 binary32 (binary64) word they are: sign bit, 8 (11) bits of exponent with bias 127 (1023), 23 (52) bits of fraction; least significant byte first, which is the default, or last with '>'. WriteFloat (WriteDouble) of that number writes those bytes.", "quantifier": "all words that are no NaN for writing, all words for reading, both byte orders and the default", "why_tests_cant": "A reader and a writer that agree on another layout, or on another default byte order, pass every round trip test.", "anchors": ["neocore/IO/BinaryWriter.py:BinaryWriter.WriteFloat", "neocore/IO/BinaryWriter.py:BinaryWriter.WriteDouble", "neocore/IO/BinaryReader.py:BinaryReader.ReadFloat", "neocore/IO/BinaryReader.py:BinaryReader.ReadDouble"]}
{"id": "C194", "title": "WriteByte writes a single byte", "statement": "WriteByte(value), documented to write a single byte given as bytes, str or int, either appends exactly one byte or raises and writes nothing.", "quantifier": "all arguments: bytes, texts, ints, subclasses of int and other objects", "why_tests_cant": "All types and lengths of the argument; a silent success cannot be seen from the return value.", "anchors": ["neocore/IO/BinaryWriter.py:BinaryWriter.WriteByte"]}
{"id": "C195", "title": "NEP-2 export and import follow the NEP-2 standard", "statement": "For every valid private key k, ExportNEP2(passphrase) of KeyPair(k) is the text NEP-2 prescribes: Base58Check of 01 42 e0, h, AES-256-ECB under d[32:] of k XOR d[:32], with h the first 4 bytes of the double SHA-256 of the address text and d = scrypt(NFC(passphrase) as UTF-8, h, N=16384, r=8, p=8, 64 bytes); and PrivateKeyFromNEP2 of that text, whoever made it, returns k.", "quantifier": "all private keys, all passphrases (of at least two characters for the export), all histories of the process", "why_tests_cant": "A test has a few vectors; an export and an import that agree on something else pass every round trip.", "anchors": ["neocore/KeyPair.py:KeyPair.ExportNEP2", "neocore/KeyPair.py:KeyPair.PrivateKeyFromNEP2"]}
{"id": "C196", "title": "Lengths, strings, arrays, amounts and public keys have the protocol's layout", "statement": "WriteVarInt writes the variable-length integer of the NEO protocol (the number itself below 0xfd, else 0xfd, 0xfe or 0xff and 2, 4 or 8 bytes, the first that fits, least significant first); WriteVarBytes and WriteVarString write the length in bytes and the (UTF-8) bytes; WriteSerializableArray the number of items and what they write, in order (None as the empty array); WriteFixed8 eight bytes of two's complement; ECPoint.Serialize the compressed form of the point, or one zero byte for infinity.", "quantifier": "all numbers below 2^64, byte strings, texts, item types and lists, 64-bit amounts, points of secp256r1", "why_tests_cant": "A reader and a writer that agree on another layout pass every round trip; the classes of lengths from 0xfd, 0x10000 and 2^32 are not reached by tests.", "anchors": ["neocore/IO/BinaryWriter.py:BinaryWriter.WriteVarInt", "neocore/IO/BinaryWriter.py:BinaryWriter.WriteVarBytes", "neocore/IO/BinaryWriter.py:BinaryWriter.WriteVarString", "neocore/IO/BinaryWriter.py:BinaryWriter.WriteSerializableArray", "neocore/IO/BinaryWriter.py:BinaryWriter.WriteFixed8", "neocore/Cryptography/ECCurve.py:EllipticCurve.ECPoint.Serialize"]}
{"id": "C197", "title": "Size is the number of bytes Serialize writes", "statement": "For an amount, a UInt160/UInt256 and an ECPoint, Size is the number of bytes that WriteFixed8 and Serialize write for it, whatever the options of Serialize.", "quantifier": "all amounts, all contents of a UInt, all points of secp256r1, compress True and False", "why_tests_cant": "The sizes are constants; the contents for which a writer writes another number of bytes are rare among samples.", "anchors": ["neocore/Fixed8.py:Fixed8.Size", "neocore/UIntBase.py:UIntBase.Size", "neocore/UIntBase.py:UIntBase.Serialize", "neocore/Cryptography/ECCurve.py:EllipticCurve.ECPoint.Size", "neocore/Cryptography/ECCurve.py:EllipticCurve.ECPoint.Serialize"]}
{"id": "C198", "title": "Text forms of a UInt", "statement": "ToString() and str() of a UInt160/UInt256 are two lower-case hexadecimal digits per byte, and denote the number with those bytes, least significant first; To0xString is 0x and that; ToBytes is that in ASCII; ToString2 denotes the number with the same bytes most significant first. Each form determines the contents.", "quantifier": "all contents", "why_tests_cant": "All contents, among them those with leading and trailing zero bytes and digits above 9.", "anchors": ["neocore/UIntBase.py:UIntBase.ToString", "neocore/UIntBase.py:UIntBase.ToString2", "neocore/UIntBase.py:UIntBase.To0xString", "neocore/UIntBase.py:UIntBase.ToBytes", "neocore/UIntBase.py:UIntBase.__str__"]}
{"id": "C199", "title": "The named amounts", "statement": "Fixed8.Zero() changes no sum; Satoshi() is the least amount above it and NegativeSatoshi() the greatest below it, and the two cancel; One() is 100,000,000 satoshis, FD() is the same, and FromDecimal(n) is n times One() for every int n.", "quantifier": "all amounts, all ints", "why_tests_cant": "\"Least above\" ranges over all amounts.", "anchors": ["neocore/Fixed8.py:Fixed8.Zero", "neocore/Fixed8.py:Fixed8.Satoshi", "neocore/Fixed8.py:Fixed8.NegativeSatoshi", "neocore/Fixed8.py:Fixed8.One", "neocore/Fixed8.py:Fixed8.FD"]}
{"id": "C200", "title": "The named curves have the parameters of SEC 2", "statement": "ECDSA.secp256r1() and ECDSA.secp256k1() have the field, coefficients and base point of the curves of that name in SEC 2; field size and order are prime, the curve is not singular, and the base point has exactly the prescribed order; Crypto.SetupSignatureCurve and KeyPair configure the bitcoin package with the parameters of secp256r1.", "quantifier": "the two curves and the two configurations; the order of the base point ranges over all its multiples", "why_tests_cant": "That a 256-bit number is prime and that no smaller multiple of the base point is the point at infinity cannot be tested by running through cases.", "anchors": ["neocore/Cryptography/ECCurve.py:ECDSA.secp256r1", "neocore/Cryptography/ECCurve.py:ECDSA.secp256k1", "neocore/Cryptography/Crypto.py:Crypto.SetupSignatureCurve", "neocore/KeyPair.py:KeyPair.__init__"]}
{"id": "C201", "title": "Keys and signatures on secp256k1", "statement": "On ECDSA.secp256k1(), calcpub(n) is n times the base point for every private key n; verify accepts every signature that sign returns, with the public key calcpub returns.", "quantifier": "all private keys, messages and nonces in [1, order)", "why_tests_cant": "2^256 keys and nonces; a handful of vectors says nothing about the rest.", "anchors": ["neocore/Cryptography/ECCurve.py:ECDSA.secp256k1", "neocore/Cryptography/ECCurve.py:ECDSA.calcpub", "neocore/Cryptography/ECCurve.py:ECDSA.sign", "neocore/Cryptography/ECCurve.py:ECDSA.verify"]}
{"id": "C202", "title": "Equal sums of points are identical", "statement": "Sums and multiples of points whose coordinates are in [0, p) have coordinates in [0, p), as have negatives of points with y other than 0; so two results that are the same point of the curve have the same coordinates and encodings: P + Q and Q + P, (P + Q) + R and P + (Q + R).", "quantifier": "all curves over prime fields, all points with reduced coordinates, all scalars", "why_tests_cant": "All curves and points; an unreduced coordinate is equal (==) to the reduced one and only shows in encodings.", "anchors": ["neocore/Cryptography/ECCurve.py:EllipticCurve.add", "neocore/Cryptography/ECCurve.py:EllipticCurve.mul", "neocore/Cryptography/ECCurve.py:EllipticCurve.neg"]}
{"id": "C203", "title": "The texts TryParse accepts", "statement": "Fixed8.TryParse(text) returns None exactly for the texts that are not numbers by the grammar of Python's float() (blanks around it, a sign, digits with an optional point and exponent, or inf, infinity, nan; underscores between digits from Python 3.6 on), and with require_positive for negative ones; it raises ValueError for nan and OverflowError for infinity and numbers too large; otherwise it returns the number in satoshis, cut off after float rounding, so within one satoshi and a relative error of 2^-51.", "quantifier": "all texts, both values of require_positive, Python with and without underscores in numbers", "why_tests_cant": "Infinitely many texts; a parser that accepts or misreads one more form is not met by examples.", "anchors": ["neocore/Fixed8.py:Fixed8.TryParse"]}
{"id": "C204", "title": "ToScriptHash hashes the bytes its text stands for", "statement": "Crypto.ToScriptHash(data) returns the hash160 of the bytes that data, a hexadecimal text, stands for, and raises binascii.Error for everything that is not hexadecimal text with an even number of digits; ToScriptHash(data, unhex=False) returns the hash160 of data itself.", "quantifier": "all byte strings, both values of unhex", "why_tests_cant": "All byte strings; the examples in use are long scripts, the exceptions are very short ones.", "anchors": ["neocore/Cryptography/Crypto.py:Crypto.ToScriptHash", "neocore/Cryptography/Helper.py:bin_hash160"]}
{"id": "C205", "title": "An address is valid exactly if it was made from 20 bytes", "statement": "isValidPublicAddress accepts what scripthash_to_address (and Crypto.ToAddress) returns for a byte string exactly if that byte string has 20 bytes.", "quantifier": "all byte strings of all lengths", "why_tests_cant": "All byte strings; that no other length ever leads to 34 characters, a leading 'A' and the right checksum takes an argument about all of them.", "anchors": ["neocore/Cryptography/Helper.py:scripthash_to_address", "neocore/Cryptography/Crypto.py:Crypto.ToAddress", "neocore/Utils.py:isValidPublicAddress"]}
{"id": "C206", "title": "The redeem script of a public key pushes that key", "statement": "pubkey_to_redeem(text) of the hexadecimal text of a public key is the script that pushes the key and checks a signature (opcode with the length of the key, the key, CHECKSIG), and pubkey_to_pubhash its hash160; both raise for everything else.", "quantifier": "all byte strings", "why_tests_cant": "All byte strings of all lengths; the published vectors are compressed keys only.", "anchors": ["neocore/Cryptography/Helper.py:pubkey_to_redeem", "neocore/Cryptography/Helper.py:pubkey_to_pubhash"]}
{"id": "C207", "title": "Sign gives the same signature for every form of a private key", "statement": "Crypto.Sign returns the same 64 bytes for a private key given as 32 bytes, as 64 hexadecimal digits of either case (text or ASCII bytes), with a compression mark behind, as a number, or as the WIF text that KeyPair.Export returns; it accepts all of these in every state of the process.", "quantifier": "all private keys, messages, nonce generators, forms and call histories", "why_tests_cant": "All 2^256 keys in all their forms; tests sign with one hexadecimal key.", "anchors": ["neocore/Cryptography/Crypto.py:Crypto.Sign", "neocore/KeyPair.py:KeyPair.Export"]}
{"id": "C208", "title": "Sign refuses what is not a private key", "statement": "Crypto.Sign raises for a private_key argument that is not a private key of secp256r1: a number outside 1..n-1, a text with characters that are no hexadecimal digits, half a key, or an object of another type.", "quantifier": "all private_key arguments, messages and call histories", "why_tests_cant": "Every argument; a test can only try some mistyped keys.", "anchors": ["neocore/Cryptography/Crypto.py:Crypto.Sign"]}
{"id": "C209", "title": "An array that ends early yields exactly its complete items", "statement": "If the data ends anywhere inside the items of an array written by WriteSerializableArray, ReadSerializableArray returns exactly the items that are complete, unchanged and in order, and nothing else.", "quantifier": "all item types, arrays of all lengths and all places where the data may end", "why_tests_cant": "Every truncation point of arrays of every length and item type.", "anchors": ["neocore/IO/BinaryReader.py:BinaryReader.ReadSerializableArray", "neocore/IO/BinaryWriter.py:BinaryWriter.WriteSerializableArray"]}
{"id": "C210", "title": "A log of records survives a crash of its writer", "statement": "If records are written one after another and the writer stops at any byte, reading the file record by record until a read raises gives exactly the records that were written completely, in order.", "quantifier": "all record types, logs of all lengths and all crash points", "why_tests_cant": "Every crash point of logs of every length and record type.", "anchors": ["neocore/IO/BinaryReader.py:BinaryReader", "neocore/IO/BinaryWriter.py:BinaryWriter"]}
{"id": "C211", "title": "Calls of threads that share a writer do not mix", "statement": "If several threads use one BinaryWriter, the stream and all results are those of performing the calls one after another, each as a whole, in some order that respects the order of each thread.", "quantifier": "all numbers of threads, programs and interleavings", "why_tests_cant": "All interleavings of any number of threads; tests run one.", "anchors": ["neocore/IO/BinaryWriter.py:BinaryWriter.WriteVarInt", "neocore/IO/BinaryWriter.py:BinaryWriter.WriteVarBytes", "neocore/IO/BinaryWriter.py:BinaryWriter.WriteBytes"]}
{"id": "C212", "title": "Threads that share a writer lose no bytes", "statement": "If several threads use one BinaryWriter, then whatever the interleaving and at whatever point it is stopped, what was written consists of the bytes of the threads, each once and unchanged: those of each thread are in their order a beginning of what it would have written alone, and all of that, with the same result, when the thread has ended; every thread that gets enough turns ends.", "quantifier": "all numbers of threads, programs, interleavings and points where they are stopped", "why_tests_cant": "All interleavings of any number of threads; tests run one.", "anchors": ["neocore/IO/BinaryWriter.py:BinaryWriter"]}
{"id": "C213", "title": "Threads that share a reader get each byte once", "statement": "If several threads use one BinaryReader, then whatever the interleaving and at whatever point it is stopped, every byte passed over was delivered to exactly one of the threads, in order; and a thread that has ended has exactly the result it has when it reads the bytes delivered to it alone, from a stream of its own.", "quantifier": "all numbers of threads, programs, interleavings and stream contents", "why_tests_cant": "All interleavings of any number of threads; tests run one.", "anchors": ["neocore/IO/BinaryReader.py:BinaryReader"]}
{"id": "C214", "title": "Calls of threads that share a reader do not mix", "statement": "If several threads use one BinaryReader, all results and the position are those of performing the calls one after another, each as a whole, in some order that respects the order of each thread.", "quantifier": "all numbers of threads, programs, interleavings and stream contents", "why_tests_cant": "All interleavings of any number of threads; tests run one.", "anchors": ["neocore/IO/BinaryReader.py:BinaryReader.ReadVarInt", "neocore/IO/BinaryReader.py:BinaryReader.ReadVarBytes", "neocore/IO/BinaryReader.py:BinaryReader.ReadBytes"]}
{"id": "C215", "title": "A failing read is reported", "statement": "If the stream of a BinaryReader raises in one of its reads (an I/O error, a closed file, a timeout), the call of the reader that made it raises this exception; no value is returned in its place.", "quantifier": "all reader calls, all streams and every read that may fail", "why_tests_cant": "Every stream object and every point of failure.", "anchors": ["neocore/IO/BinaryReader.py:BinaryReader.ReadByte", "neocore/IO/BinaryReader.py:BinaryReader.ReadVarInt", "neocore/IO/BinaryReader.py:BinaryReader.ReadSerializableArray", "neocore/IO/BinaryReader.py:BinaryReader.unpack"]}
{"id": "C216", "title": "Short reads do not damage data", "statement": "If the stream of a BinaryReader delivers fewer bytes than it is asked for, as sockets, pipes and unbuffered files do, every call raises or returns what it returns from a stream that delivers them all.", "quantifier": "all reader calls and programs, all streams and all divisions of their content", "why_tests_cant": "Every division of every content into parts.", "anchors": ["neocore/IO/BinaryReader.py:BinaryReader.ReadBytes", "neocore/IO/BinaryReader.py:BinaryReader.ReadVarBytes", "neocore/IO/BinaryReader.py:BinaryReader.unpack", "neocore/IO/BinaryReader.py:BinaryReader.SafeReadBytes"]}
{"id": "C217", "title": "A failing write is reported, and what was written is a beginning", "statement": "If the stream of a BinaryWriter raises in one of its writes, the call of the writer raises this exception and writes no more; the bytes the stream took before are a beginning of what would have been written, and all of it if no write raised.", "quantifier": "all writer calls and programs that pass exceptions on, arrays included, all streams and every write that may fail", "why_tests_cant": "Every stream object and every point of failure.", "anchors": ["neocore/IO/BinaryWriter.py:BinaryWriter"]}
{"id": "C218", "title": "Bytes the stream does not take are noticed", "statement": "If the stream of a BinaryWriter takes fewer bytes than it is given, as sockets, pipes and unbuffered files do, the call of the writer raises, writes the rest, or returns the number of bytes taken.", "quantifier": "all writer calls and streams", "why_tests_cant": "Every stream object and every number of bytes it may take.", "anchors": ["neocore/IO/BinaryWriter.py:BinaryWriter.WriteBytes", "neocore/IO/BinaryWriter.py:BinaryWriter.WriteVarBytes", "neocore/IO/BinaryWriter.py:BinaryWriter.pack", "neocore/IO/BinaryWriter.py:BinaryWriter.WriteUInt160"]}
{"id": "C219", "title": "A writer and a reader on one stream work as a queue", "statement": "If a BinaryReader and a BinaryWriter are given the same stream, the writer destroys nothing that has not been read yet, and the reader reads what the writer wrote.", "quantifier": "all programs of reader and writer calls and all stream contents", "why_tests_cant": "All interleavings of calls and all contents.", "anchors": ["neocore/IO/BinaryReader.py:BinaryReader", "neocore/IO/BinaryWriter.py:BinaryWriter"]}
{"id": "C220", "title": "A stream shared by a reader and a writer is a tape", "statement": "Whatever a program does with a BinaryReader and a BinaryWriter on one stream, the position never moves backwards nor beyond the end; what lies before it changes no more, what lies after it has never been changed, the stream does not get shorter, and every reader call returns what it returns from the original stream at the same position.", "quantifier": "all programs of reader and writer calls, exceptions included, and all stream contents", "why_tests_cant": "Unbounded histories of mixed calls.", "anchors": ["neocore/IO/BinaryReader.py:BinaryReader", "neocore/IO/BinaryWriter.py:BinaryWriter"]}
{"id": "C221", "title": "Field values beside objects of other classes", "statement": "For a value v of a FiniteField and any object y, v == y and y == v return the same bool and never raise: True exactly if y is a number, or text or field value standing for one, that is congruent to v; and v can be hashed.", "quantifier": "all field values and all objects beside them", "why_tests_cant": "All values of all fields and all objects of all classes.", "anchors": ["neocore/Cryptography/ECCurve.py:FiniteField.Value.__eq__", "neocore/Cryptography/ECCurve.py:FiniteField.eq", "neocore/Cryptography/ECCurve.py:FiniteField.integer", "neocore/Fixed8.py:Fixed8.__eq__"]}
{"id": "C222", "title": "sum adds up amounts and BigIntegers", "statement": "For every list of Fixed8 amounts sum(l) is the amount that is their exact total, the same for every order of the list; for every list of BigIntegers sum(l) is the BigInteger that is their total. The same holds for sum(l, start) with a start of the class.", "quantifier": "all lists of amounts or BigIntegers, of any length and order", "why_tests_cant": "Lists of every length; the total of unbounded integers.", "anchors": ["neocore/Fixed8.py:Fixed8.__add__", "neocore/BigInteger.py:BigInteger.__add__"]}
{"id": "C223", "title": "max and min find the largest and the smallest", "statement": "For every nonempty list of amounts, of hashes of one kind, or of public keys, max(l) and min(l) are elements of the list that no other element exceeds (undercuts), hashes compared as numbers, and they do not depend on the order of the list; for an empty list they raise ValueError.", "quantifier": "all nonempty lists of amounts, hashes of one kind, public keys", "why_tests_cant": "Lists of every length in every order.", "anchors": ["neocore/Fixed8.py:Fixed8.__gt__", "neocore/Fixed8.py:Fixed8.__lt__", "neocore/UIntBase.py:UIntBase.CompareTo", "neocore/Cryptography/ECCurve.py:EllipticCurve.ECPoint.__gt__"]}
{"id": "C224", "title": "Zero is false in a condition", "statement": "In a condition (if x, not x, bool(x)) an amount, a BigInteger, a hash, a field value or a point counts as false exactly if it is zero (Infinity).", "quantifier": "all amounts, BigIntegers, hashes, field values and points", "why_tests_cant": "All values of unbounded types.", "anchors": ["neocore/Fixed8.py:Fixed8", "neocore/BigInteger.py:BigInteger", "neocore/UIntBase.py:UIntBase", "neocore/Cryptography/ECCurve.py:FiniteField.Value", "neocore/Cryptography/ECCurve.py:EllipticCurve.ECPoint"]}
{"id": "C225", "title": "ReadString reads what its length byte announces", "statement": "ReadString reads data of up to 255 bytes preceded by one byte with their number, and moves exactly past them; if the stream ends before, it raises struct.error. Data and texts of fewer than 253 bytes that WriteVarBytes and WriteVarString have written are read back by it.", "quantifier": "all byte strings of up to 255 bytes, all streams and positions, all texts", "why_tests_cant": "lengths above 127 and 252 behave differently in a signed byte and in a variable-length integer; every point of truncation.", "anchors": ["neocore/IO/BinaryReader.py:BinaryReader.ReadString", "neocore/IO/BinaryReader.py:BinaryReader.unpack", "neocore/IO/BinaryWriter.py:BinaryWriter.WriteVarString"]}
{"id": "C226", "title": "Crypto.Default() signs and verifies on secp256r1 in every process", "statement": "Crypto.Default().Sign, .VerifySignature and .Hash256 give, after every history of library calls and in a fresh process too, what Crypto.Sign and Crypto.VerifySignature give in a process that only called SetupSignatureCurve, and SHA-256 applied twice. An instance fetched once keeps doing so whatever is called later. VerifySignature without unhex unhexlifies the message.", "quantifier": "all histories of library calls before and after the instance is fetched, all messages, keys and signatures", "why_tests_cant": "the curve is process-wide state set as a side effect, and set by Default() only the first time it is called.", "anchors": ["neocore/Cryptography/Crypto.py:Crypto.Default", "neocore/Cryptography/Crypto.py:CryptoInstance"]}
{"id": "C227", "title": "Crypto.Default().Hash160 returns the text Crypto.Hash160 returns", "statement": "As both docstrings say, Crypto.Default().Hash160(m) is the hash RIPEMD-160(SHA-256(m)) as hexadecimal text, the same as Crypto.Hash160(m).", "quantifier": "all messages, all histories of library calls", "why_tests_cant": "two entry points must agree on every message; a test samples a few.", "anchors": ["neocore/Cryptography/Crypto.py:CryptoInstance.Hash160", "neocore/Cryptography/Crypto.py:Crypto.Hash160", "neocore/Cryptography/Crypto.py:Crypto.Hash160Bytes"]}
