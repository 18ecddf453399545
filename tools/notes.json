{
 "C03": {
  "note": "Proved for every v < 2^64 and every max >= v; the default max is C81."
 },
 "C05": {
  "note": "Negatives and non-integers: proved. False for v >= 2^64: a stray 0xff byte stays on the stream (_violated)."
 },
 "C06": {
  "note": "Proved for values >= 0xfd; false below (BigInteger/bool write nothing at all, _violated)."
 },
 "C10": {
  "note": "Proved for strings that are not even-length ASCII-hex; false exactly on those (WriteBytes unhexes; _violated)."
 },
 "C102": {
  "note": "Relative to DerivesPublicKeys (met by the modelled bitcoin package) and arbitrary scrypt/AES/NFC."
 },
 "C103": {
  "note": "For an arbitrary hash function of fixed output length."
 },
 "C104": {
  "note": "Relative to DerivesPublicKeys (met by the modelled bitcoin package); scrypt, AES and NFC arbitrary (AES: decryption inverts encryption)."
 },
 "C106": {
  "note": "The meaning of bit patterns (IEEE-754) is the decode function of Model/Floats; rounding is specified independently in Spec/Float."
 },
 "C11": {
  "note": "Property false as stated (_violated): even-length ASCII hex text is unhexed. The exact exception set is C83."
 },
 "C110": {
  "note": "Fails above 2^53 because struct rounds the int to binary64 first and to binary32 second (C110_double_rounding_violated: 2^60+2^36+1). Proved: nearest up to 2^53, the exact two-step rounding for all ints below 2^128-2^103-2^74, struct.error from there on (so the last 2^74 ints before 2^128-2^103 are refused too). Exact condition for every int that is written (C110_int_float_iff_partial): wrong iff its 53-bit rounding is halfway between two binary32 numbers and the int lies on the other side of it than the number read back."
 },
 "C111": {
  "note": "Assumes of the bitcoin package only what DerivesPublicKeys says (realised by the concrete model, see Proofs/Bitcoin.lean)."
 },
 "C115": {
  "note": "Proved for non-empty Base58 texts; the empty text ends in an IndexError traceback and every text with a non-Base58 character in a ValueError traceback (_violated)."
 },
 "C117": {
  "note": "Proved with the value on the left, for every positive divisor coprime to the modulus, and for inverse of positive representatives. An int or text over a value always raises TypeError, since the code defines __rdiv__ but no __rtruediv__ (_violated). Modulus 0 and negative divisors: see C60/C61."
 },
 "C118": {
  "note": "Holds exactly for 0 and for values that are no multiple of the modulus (C118_iff_partial); -zero and every value built from a non-zero multiple of the modulus equals 0 but iszero() is false (_violated)."
 },
 "C119": {
  "note": "The text is 0x followed by the decimal digits: right for 0..9 only, wrong for every value from 10 on (_violated)."
 },
 "C12": {
  "note": "Proved for contents that are not all-ASCII-hex; false for all-ASCII-hex contents (_violated)."
 },
 "C121": {
  "note": "Proved for values whose fields share a modulus (third value arbitrary); false across moduli (_violated)."
 },
 "C122": {
  "note": "False on every curve: 3 and 5 give the same point, and all 2^256 keys together give at most 28381 points, since the scalar is halved as a float (C122_few_multiples_violated). C122_classes_partial: which scalars that are floats (all below 2^53 among them) give the same point of secp256r1, exactly; C122_doubled_partial: doubling changes the point."
 },
 "C123": {
  "note": "False for every scalar but 0: P * -n is computed exactly as P * n, which on secp256r1 is never -(P * n) for 0 < |n| <= 2^256 (_violated)."
 },
 "C125": {
  "note": "Relative to the contract DerivesPublicKeys of the bitcoin package, which the package as modelled meets (pyBtc_derives)."
 },
 "C126": {
  "note": "False: with a field value as divisor (the documented use) it always raises TypeError; with ints 1/a is a float, and P / 1 is already wrong (_violated). Only division by 0 is as expected."
 },
 "C127": {
  "note": "findpk2 always raises; findpk always raises on the library's secp256r1 (_violated). Proved: with the order as an integer, a correct scalar multiplication, p < 2^52 (C79) and a message not divisible by n, findpk recovers the key."
 },
 "C132": {
  "note": "Decided for every record type (C132_iff_partial): the encoding of a valid record refuses truncation at all points if and only if its last field is of fixed width; C132_fixed_width_partial is the special case of fixed-width fields only. False for byte strings, which come back shortened, and for variable-length data, fixed strings and hash lists that are missing altogether, which read as 0 or empty (_violated). Strings and lengths: C133."
 },
 "C134": {
  "note": "Fixed-width integers: C129. False for ReadVarInt (fd 05 00 is accepted for 5; it holds exactly for the shortest form) and ReadBool (any non-zero byte) (_violated)."
 },
 "C15": {
  "note": "All records of all field types, any nesting, except hex-text contents of UInt/hash fields (defect C12/C17) and VarInts above sys.maxsize (defect C03). Records with such a UInt are not read back (C15_hex_violated)."
 },
 "C17": {
  "note": "Proved for hashes that are not all-ASCII-hex; false for those (_violated)."
 },
 "C18": {
  "note": "False for every list (_violated): the writer writes 32 raw bytes per hash, the reader expects 64 hex characters. Each side's true layout is proved."
 },
 "C23": {
  "note": "Proved for v >= -2^19 (-2^31); exactly where it fails below is the _violated theorem."
 },
 "C25": {
  "note": "The exact condition for negatives is proved (iff); it fails e.g. for -1 (ff ff instead of ff). Non-negatives and the two's complement property are C101."
 },
 "C28": {
  "note": "Proved for |v| <= 2^27 units (above total supply), and that bound is the best possible: from there to 2^53 units Floor, ToInt and Ceil are wrong beside every whole number (C28_every_large_violated). For all amounts below 2^52 units (64-bit amounts are below 2^37) C28_iff_partial says exactly for which ones each of the three is right."
 },
 "C29": {
  "note": "Exact for dividends below 2^53, false beyond (_violated). C29_iff_partial says exactly for which amounts it is right, for all amounts whose quotient is below 2^1000; for the divisor 1 also C29_div_one_iff_partial. // and %, and division by zero: C84."
 },
 "C30": {
  "note": "False as stated (0.00000029 -> 28; 90000000.00000002 -> ...01). Exact condition for every amount: below 2^52 satoshis C30_float_iff_partial (at most one satoshi lost), from there to 2^53 units, beyond 64 bits, C30_float_large_iff_partial, and negatives of both. In units up to the total supply (C30_float_supply_partial): right for all amounts between 2^52 satoshis and 2^26 units, for even numbers of satoshis from 2^53 on, and in between by v * 2^26 mod 10^8; never more than a satoshi off. ints and Decimals: C85."
 },
 "C31": {
  "note": "Raising characterised exactly (nan, inf, overflow; _violated); a whole number n of units is read exactly if and only if n*5^8 has at most 53 significant bits and n*10^8 < 2^1024, or n is too large for a float (all ints: C31_whole_iff_partial), in particular up to 2^53/5^8 units. None and require_positive: C86."
 },
 "C32": {
  "note": "Exact for |amount| < 2^26 units (67,108,864) and for every 64-bit amount of at most 15 significant digits, and the number denoted is within 2^-51 relative error for every 64-bit amount; violated from 2^26 units on, where two amounts one satoshi apart print the same text. repr(float) is modelled as: a shortest decimal that rounds to the double (contract Dtoa, proved satisfiable), formatted as CPython does (exponent notation below 1e-4). Up to 2^63 in magnitude the text always denotes an amount, and of all amounts with the same text exactly one is the one denoted (C32_one_right_partial); an amount that shares its float with no other is printed right (C32_alone_partial). Outside 64 bits nothing is claimed."
 },
 "C34": {
  "note": "Proved for all histories in which no client mutates a byte array an object aliases; false otherwise (_violated): the cached hash goes stale. See also C87."
 },
 "C35": {
  "note": "CompareTo ignores byte 0: exact characterisation proved (compares value/256); false for values differing only in the lowest byte (_violated). What the operators do satisfy is C88."
 },
 "C36": {
  "note": "Proved for all histories with enough bytes; Deserialize on a short stream silently shrinks the object (_violated). Constructors: C89."
 },
 "C40": {
  "note": "The accepted set is characterised exactly: version bytes 22, 23 and 24 whose 34-character text starts with 'A' pass, so it is false as stated (_violated). Totality and completeness: C90."
 },
 "C41": {
  "note": "Exact characterisation of what is accepted; the version-byte test is always truthy, any payload length passes and malformed text raises IndexError/ValueError rather than ConversionError (_violated)."
 },
 "C43": {
  "note": "For every key pair that was constructed, from 32, 96 or 104 bytes."
 },
 "C44": {
  "note": "Exactly the Base58Check texts of 0x80 k 0x01 are accepted; everything else raises ValueError (TypeError for None)."
 },
 "C45": {
  "note": "Round trip proved for every key pair whose public key is the derived one; fails for 96/104-byte keys whose private key is not below n (C45_embedded_violated). For 32-byte keys 1..n-1 it is C104. scrypt, AES and NFC are arbitrary functions (AES: decryption inverts encryption)."
 },
 "C46": {
  "note": "False as stated: header and flag bytes are ignored (C46_flag_violated). The part about the address is C102.",
  "also": [
   "Neo.Props.C102_address"
  ]
 },
 "C47": {
  "note": "The derived key is stated relative to DerivesPublicKeys; Neo.pyBtc_derives proves that the published bitcoin functions satisfy it. Keys from the group order on raise."
 },
 "C48": {
  "note": "Agreement for every encoded key; for every key with 256-bit coordinates other than Infinity the address exists, is the specified one, has 34 characters and is valid."
 },
 "C51": {
  "note": "Hash functions are parameters with output-length laws (structure Prims)."
 },
 "C52": {
  "note": "False in a fresh process, where secp256k1 is in force (C52_fresh_process_violated, C52_sign_violated with a computed signature). True after any set-up: C91.",
  "also": [
   "Neo.Props.C91_same_parameters",
   "Neo.Props.C91_after_setup",
   "Neo.Props.C91_keyPair"
  ]
 },
 "C53": {
  "note": "Returns a bool exactly for the key arguments of C53_total_partial and raises for the others (C53_total_violated). Valid signatures are accepted for keys with coordinates below n; the packages reject others (C80_large_key_violated). Exact acceptance condition: C93; Sign: C92."
 },
 "C54": {
  "note": "For an arbitrary hash function and every list; int((len+1)/2) modelled exactly (true below 2^53 leaves)."
 },
 "C55": {
  "note": "Full statement is false of the code: repeating the last element of an odd list (C55_root_binds_violated) or replacing the list by an inner level (C55_inner_level_violated) keeps the root. For lists of equal length: C103. C55_same_root_partial says exactly which lists share a root: those whose completed trees have a common level (SameTree of Spec/MerkleFill), up to an explicit hash collision."
 },
 "C56": {
  "note": "Depth and the distance of every leaf; the loop's fuel provably never runs out."
 },
 "C57": {
  "note": "The returned list is duplicate-free with exactly the input hashes; order left open as in Python."
 },
 "C58": {
  "note": "False of the code: both recursive calls use index*2 (MerkleTree.py:188-189), so only flags 0 and 1 matter. C58_iff_partial: the intended effect results exactly if all flags are zero, or no bottom pair has two zero flags, or there are at most 2 leaves; concrete counterexample C58_trim_violated. What happens for every tree and flags: C94."
 },
 "C59": {
  "note": "All allocated nodes of every built tree."
 },
 "C60": {
  "note": "Proved for positive x; for every negative x it returns an inverse of -x (_violated). GCD: C95."
 },
 "C61": {
  "note": "Proved for positive divisors; division by zero returns 0 instead of raising, division by a negative representative has the wrong sign (_violated). The other operators: C96."
 },
 "C63": {
  "note": "For every finite P, P - Infinity is wrong, because -Infinity is the pair (0, p), not recognised as Infinity (_violated). Finite subtrahends: C105.",
  "also": [
   "Neo.Props.C105_finite"
  ]
 },
 "C64": {
  "note": "Proved: what is computed instead (closed form for |n| < 2^53), that it is a point of the curve below 2^1025 - 2^971 and that OverflowError is raised from there on. For no key 0 < |n| < group order is calcpub(n) the n-fold sum of the base point (C64_every_key_violated); see also C122, C123, C124. What is computed instead is C64_computed_partial."
 },
 "C65": {
  "note": "Exactly when a root is found (C65_found_iff_partial): p = 2 or p = 3 mod 4, reduced v, and a root exists. For p = 1 mod 4 it never finds a root (the Lucas loop is dead code) and unreduced v always fail (_violated). Soundness: C97."
 },
 "C66": {
  "note": "Hex round trip for finite points proved. decode_from_hex of the encoding of Infinity raises, and uncompressed serialisations cannot be read (_violated). Stream round trip and injectivity: C98."
 },
 "C68": {
  "note": "96/104-byte keys: proved. All 33/65-byte keys raise binascii.Error and all 64/72-byte keys TypeError (_violated). No text is decoded either: hex text of a key gives None, texts of the other lengths raise (C68_text_violated)."
 },
 "C69": {
  "note": "Not total: P and -P are never comparable (_violated). It is a partial order: C99.",
  "also": [
   "Neo.Props.C99_partial_order"
  ]
 },
 "C70": {
  "note": "On plain integers proved for s2 < s1; with s1 < s2 the nonce comes out negated (_violated). On the field values sign returns: C100."
 },
 "C71": {
  "note": "sign/verify of ECDSA.secp256r1() always raise (_violated). Proved: with the order as an integer and a correct scalar multiplication in place of the real one (C64), verify accepts every signature with s != 0."
 },
 "C73": {
  "note": "Proved for sizes below 8 bits; from 8 bits on some random outcome is out of range (_violated). Bound 256^(s/8+1) proved for all sizes."
 },
 "C74": {
  "note": "False for every nonzero amount (_violated): raw satoshi counts are multiplied/divided. What is computed is characterised."
 },
 "C75": {
  "note": "Proved for p < 2^52; for p = 3 mod 4 it holds exactly if (p+1)/4 has at most 53 significant bits and is below 2^1024 (C75_iff_partial); so it fails for the prime of secp256r1, whose exponent (p+1)/4 is rounded to a float (_violated)."
 },
 "C76": {
  "note": "ToString is hex of hex (_violated); partial: one layer of unhexlify gives the decodable encoding, and Infinity round-trips."
 },
 "C77": {
  "note": "Violated by coordinates x >= p (x = 5 and x = 5 + p); proved for reduced coordinates."
 },
 "C78": {
  "note": "End of stream gives Infinity, and short reads are accepted (_violated). C78_stream_iff_partial says exactly which truncated keys are accepted: those whose remaining bytes, read as a big-endian number, are the x of a curve point."
 },
 "C79": {
  "note": "Proved for p < 2^52, and for p = 3 mod 4 if (p+1)/4 has at most 53 significant bits and is below 2^1024 (C79_wide_partial); on secp256r1 the decompressed base point is not on the curve (_violated)."
 },
 "C80": {
  "note": "Proved for the packages bitcoin and ecdsa as modelled, for every nonce not divisible by n: the answer is True exactly if r is in 1..n-1, s is not 0 and the public key's coordinates are below n (C80_round_trip_partial, C80_key_pair_partial). False for some private keys (C80_large_key_violated) and some nonces (C80_large_nonce_violated). For every form of the private key: C80_any_form_partial."
 },
 "C81": {
  "note": "Proved for v < 2^63; false for every v from 2^63 on, since the default max is sys.maxsize (_violated)."
 },
 "C92": {
  "note": "The curve package's ecdsa_raw_sign is an arbitrary function here; its model is in C80."
 },
 "C93": {
  "note": "Relative to the contract VerifiesEcdsa of the ecdsa package, which the modelled package meets (pkgBtc_verifies); 33-byte keys in a process where the curve was set up (C91). Includes correctness of point decompression."
 },
 "C137": {
  "note": "The ideal statement is false: with every accepted signature (r, s) the mirrored (r, n - s) is accepted too, and verify_signature does not ask for the small half. Proved: the mirrored signature is always accepted (violated); and for a fixed r >= p - n (all but a 2^-128 fraction of the values of r) no third s is accepted (partial). For r < p - n two x coordinates have the same r, so up to four values of s are possible."
 },
 "C140": {
  "note": "For any functions in the place of SHA-256 and RIPEMD-160, and relative to the contract DerivesPublicKeys of the bitcoin package (which the modelled package meets, pyBtc_derives)."
 },
 "C141": {
  "note": "False for two kinds of WIFs with correct checksum: of the key 0 (KeyPair succeeds with the point at infinity as public key, GetAddress raises binascii.Error) and of keys from the group order on (KeyPair raises). Proved for all others, as an equivalence: the wallet is usable exactly for keys 1..n-1."
 },
 "C142": {
  "note": "False for ExportNEP2 where one form has one character and the other two or more: the length test counts characters before normalisation. Proved for passphrases that both have, or both lack, two characters, and for PrivateKeyFromNEP2 without restriction. NFC is an arbitrary function here; the violation assumes only that it identifies the two ways to write e with acute accent."
 },
 "C144": {
  "note": "Proved for 32-byte keys. False for 96- and 104-byte keys: any private key goes with any pair of 32-byte numbers as public key, checked neither against the private key nor against the curve."
 },
 "C146": {
  "note": "Proved for 32-byte keys. False for 96- and 104-byte keys whose embedded public key is not that of the private key."
 },
 "C149": {
  "note": "Values are right for every operator but int / BigInteger (C149_values_partial, C149_unary_partial); with an int on the left, and for **, &, |, ^, unary + and ~, and divmod, the result is a plain int; int / BigInteger is a float."
 },
 "C150": {
  "note": "Equals of anything that is not an int returns NotImplemented, which is truthy."
 },
 "C151": {
  "note": "Fixed8 and points raise AttributeError when compared with an object of another class, on either side (exactly when: C151_raises_iff_partial)."
 },
 "C155": {
  "note": "371 frames suffice for every number below 2^256 (all curve uses; the limit is 1000); for every limit consecutive Fibonacci numbers exceed it, exactly from F(n+1) on with n frames."
 },
 "C156": {
  "note": "Violated: 29 satoshis (2.9e-07) are read back as 28 (C156_violated). Proved: the exact condition for all 64-bit amounts (C156_iff_partial below 2^52 satoshis, C156_large_iff_partial from there on, those of C30); below 2^52 satoshis the result is the amount or one satoshi less in magnitude; amounts a float holds exactly come back exactly; every 64-bit amount within 1 satoshi plus 2^-51 relative; negative texts are refused when a positive amount is required. float(text) and int(text) enter by contract (Faithful: float gives the nearest double of a decimal text)."
 },
 "C157": {
  "note": "Decimal(text) enters by contract (DecimalOf: the number the text denotes, coefficient made of its digits); decimalOf_exists shows the contract can be met."
 },
 "C158": {
  "note": "Interleaving model with one step per access to bitcoin.main.P/N/A/B/Gx/Gy/G and Crypto._Instance; the functions of the bitcoin package are any readers of these variables that compute B's functions when undisturbed. Rely-guarantee proof; liveness for fair schedules (C158_finishes)."
 },
 "C159": {
  "note": "Violated: while one thread runs SetupSignatureCurve (or constructs the first KeyPair), another thread that has not set the curve signs with secp256r1's prime and secp256k1's other parameters (C159_mixed_curve_violated). Proved: threads that have set the curve, and processes in which nobody does."
 },
 "C160": {
  "note": "Programs are trees of writer calls branching on results (WriteClient), including WriteSerializableArray through its element calls."
 },
 "C161": {
  "note": "Programs are trees of reader calls branching on results and errors (ReadClient)."
 },
 "C162": {
  "note": "Violated: an item that is not hexadecimal stops WriteHashes/Write2000256List with the count and all items before it written (C162_lists_violated, exact); WriteVarBytes of a text writes its length and raises (C162_text_violated); WriteVarInt of 2^64 or more leaves 0xff (C162_varInt_partial characterises all failing calls). Proved for all other methods."
 },
 "C163": {
  "note": "Violated by every method that takes a fixed number of bytes: when it raises, all that was left of the stream has been passed over (C163_lost_violated), likewise ReadVarInt (C163_varInt_violated, exact). Proved for ReadByte, ReadBytes, ReadFixedString."
 },
 "C164": {
  "note": "Violated for UTF-16: the hexadecimal text is decoded in the encoding too, so every non-empty text raises after its length has been written (C164_utf16_violated). Proved for all encodings that read ASCII data as ASCII text."
 },
 "C165": {
  "note": "Violated: missing data turns into shorter and empty hashes, without an error (C165_short_violated gives the exact result on every stream). Proved when the data is complete."
 },
 "C166": {
  "note": "AcceptedUnder ranges over public keys given as points; about every package whose verification is ECDSA's (VerifiesEcdsa, which the modelled bitcoin package meets: C80). C166_two_keys is a concrete signature accepted under G and under -G."
 },
 "C167": {
  "note": "Heap model with shared bytearrays and the hash stored in the dictionary entry, as CPython does; the condition excludes changing an aliased bytearray and Deserialize on a key, which do break dictionaries (C41)."
 },
 "C168": {
  "note": "Heap of objects and variables (Model/Fixed8Vars), refinement to variables holding numbers. Assigning to the attribute `value` from outside is not part of the programs. What /, Ceil and Floor compute is C29, C28, C147, C148."
 },
 "C169": {
  "note": "Negative exponents without modulus give an object whose value is a float (C169_negative_violated); nonnegative exponents and moduli are as stated (C169_whole_partial)."
 },
 "C170": {
  "note": "Bytes and characters are bounded for every method (C170_contents_partial), items of ReadSerializableArray if every item passes over a byte (C170_array_partial). The number of items is not: nine bytes make ReadHashes return any number below 2^63 of empty hashes (C170_items_violated)."
 },
 "C174": {
  "note": "Proved. -v is not reduced when v is a multiple of the modulus (see C118)."
 },
 "C175": {
  "note": "Fails exactly for different hashes that agree in all but the lowest byte (CompareTo skips byte 0): they keep the order of the input. Proved otherwise, for every stable sort. C175_iff_partial: independent of the order of the input if and only if the list has no two such hashes."
 },
 "C176": {
  "note": "Fails for a key and its negative (equal x), which keep the order of the input. Proved for lists without two different points of equal x; the outcome is always ascending in x. C176_iff_partial: independent of the order of the input if and only if no two different points of the list have equal x."
 },
 "C178": {
  "note": "Value.sqrtCQ calls self.field.sqrtCQ, which FiniteField does not have: every call raises AttributeError (C178_sqrtCQ_violated), also where the module function returns a root. sqrt and inverse agree (C178_methods_partial)."
 },
 "C179": {
  "note": "Fixed8 and ECPoint define __eq__ without __hash__, so no amount and no point can be put into a set or be a dictionary key: TypeError (C179_unhashable_violated; FiniteField.Value likewise: C221_violated). BigInteger and UInt are hashed consistently with == across classes (C179_consistent_partial)."
 },
 "C180": {
  "note": "BigInteger.__truediv__ is floor division, so the methods of Fixed8 that divide behave differently on BigInteger values: for every amount that is not whole, Ceil returns less than the amount and the text drops the fraction (Fixed8(BigInteger(150000000)) prints as 1); ToInt of a negative one is off by one (C180_rounding_violated). +, -, *, //, %, negation and Floor agree (C180_arithmetic_partial, C180_floor_partial)."
 },
 "C181": {
  "note": "Proved for all floats. TryParse converts ints and Decimals to float first: Decimal(\"0.00000029\") gives 28 satoshis where FromDecimal gives 29, and the int 2^53 + 1 loses a unit (C181_violated). Exact condition for all ints; and for Decimals below 2^53 units (C181_decimal_iff_partial, C181_decimal_large_iff_partial); below 2^52 satoshis never more than one satoshi is lost. A signalling NaN gives None from TryParse where FromDecimal raises."
 },
 "C183": {
  "note": "The scalar is halved as a float until it underflows, so every product takes 1074 or 1075 rounds more than n has bits: 1075 for P * 1 (C183_many_rounds_violated). That is also the upper bound, so it always ends (C183_rounds_partial)."
 },
 "C186": {
  "note": "decimal rounds the product with 10^8 to 28 significant digits, so it holds exactly for amounts of at most 28 significant digits below 10^1000000 satoshis (C186_exact_iff_partial); error bound for all Decimals; _violated for 10^28 + 1 satoshis."
 },
 "C188": {
  "note": "False of ECDSA without the key in the hash: for any two messages a key and a signature valid for both can be made (duplicate-signature key selection; concrete with the real SHA-256 in C188_pay_violated). What holds: at most four digests per signature and key, and unless r < p - n a second digest gives the private key away, so it takes the key's owner to do it."
 },
 "C189": {
  "note": "For every ecdsa package. The 33-byte form needs signatureCurve in force (C54/C93); point and 64 bytes agree in every state, on the curve or not."
 },
 "C187": {
  "note": "argparse itself is not modelled; arguments are those parse_args has found. A command line consisting of a bare -- is not modelled."
 },
 "C190": {
  "note": "The leaves share the caller's UInt256 objects, inner hashes are computed once: _violated for every tree of two or more hashes (one Deserialize makes the root stale, up to a hash collision among the strings hashed). Holds while nothing happens to the objects concerned, and always for one hash, which is its own root object."
 },
 "C191": {
  "note": "The readers have no byte order option and always read '<'. Characterised exactly: a value or length is read back iff the order is '<', it is below 0xfd, or its digits read the same backwards; otherwise ReadVarInt returns the number with the digits reversed."
 },
 "C192": {
  "note": "The option names the opposite order: with 'little' (the default) the most significant byte comes first, as SEC 1 has it; with 'big' the least significant one. Round trip characterised exactly: the default always, 'big' only if the bytes of the coordinates read the same backwards."
 },
 "C194": {
  "note": "Violated: a bytes object or text of any length is written whole, and a BigInteger, bool, bytearray, None or other object is dropped without an error (C194_violated). The effect on every argument is characterised (C194_writeByte_effect), and the arguments that give exactly one byte, and those that raise, exactly (C194_single_byte_iff_partial, C194_raises_iff_partial)."
 },
 "C197": {
  "note": "Holds for amounts (C197_fixed8). Violated for a UInt exactly when its contents are non-empty ASCII hexadecimal text, where WriteBytes unhexes and half as many bytes are written, and for a finite public key exactly with compress=False, where 65 bytes are written and Size() says 33. MerkleTreeNode.Size() is sys.getsizeof of the Python object and has no counterpart in a model."
 },
 "C200": {
  "note": "The object secp256r1() carries the field in place of the order (C71); the order proved here is that of its base point."
 },
 "C201": {
  "note": "Violated: mul works through floats, and of all n with |n| below the order exactly 0 and two numbers above 2^255 get the right public key (C201_calcpub_iff_partial, exact). With the key 1, every signature of the message 0 whose s is not 0 is rejected (C201_sign_verify_violated), and there are such signatures (C201_rejected_violated). sign and verify are right relative to a correct scalar multiplication (C201_sign_verify_partial)."
 },
 "C204": {
  "note": "Violated for every single byte: it is hashed as it is although it is no hexadecimal text (C204_single_byte_violated), so it has the script hash of its own two-digit text. For all other lengths exact (C204_unhex_partial, C204_raises_iff_partial)."
 },
 "C206": {
  "note": "Violated for every key whose length is not 33 bytes, uncompressed ones among them: the opcode is always 0x21, so the script does not push the key (C206_length_violated, C206_redeem_iff_partial). Everything that is not hexadecimal raises (C206_raises)."
 },
 "C207": {
  "note": "Sign hands its argument to the bitcoin package, whose decode_privkey is modelled from its published source (all formats but float)."
 },
 "C208": {
  "note": "Violated: every number (0, multiples of the order, negative ones), every 32 or 64 bytes and every text of 64 characters is accepted (C208_no_key_violated); a character that is no digit counts as -1, so a mistyped key signs as another key (C208_typo_violated); in a WIF text a character outside the Base58 alphabet is taken the same way (C208_wif_typo_violated). What is refused is characterised for all arguments that are not texts (C208_raises_iff_partial) and for Base58 texts (C208_base58_partial)."
 },
 "C209": {
  "note": "Holds for items whose last field is of fixed width (C209_complete_items_partial). An array of byte strings that ends early is filled up with empty byte strings (C209_filled_up_violated)."
 },
 "C210": {
  "note": "Holds for records whose last field is of fixed width (C210_log_partial). For every other record type some cut inside a record is read as a record (C210_phantom_violated), and reading byte strings until a read raises never ends, even without a crash (C210_endless_violated)."
 },
 "C211": {
  "note": "Holds for the calls that write all their bytes with one stream.write (C211_one_write_partial): fixed-width numbers, bools, floats, amounts, UInt160/256, raw bytes, fixed strings without padding, variable-length numbers below 0xfd. All other calls can be torn (C211_varbytes_violated, C211_varint_violated). Threads switch between calls of stream.write (io.BytesIO.write holds the interpreter lock)."
 },
 "C212": {
  "note": "The writer's methods are divided at their calls of stream.write (Model/WriterSteps); refines_client proves that without other threads this is the sequential model."
 },
 "C213": {
  "note": "The reader's methods are divided at their calls of stream.read (Model/ReaderSteps); readsAs_client proves that without other threads this is the sequential model."
 },
 "C214": {
  "note": "Holds for the calls that read all their bytes with one stream.read (C214_one_read_partial): fixed-width numbers, bools, chars, floats, amounts, UInt160/256, raw bytes, fixed strings. Calls of several reads can be torn (C214_varbytes_violated: one thread gets a byte string shifted by one byte, with the other's length at its end)."
 },
 "C215": {
  "note": "Violated: ReadByte's handler also catches what the stream raises, so ReadByte and ReadVarInt return 0, ReadHashes an empty list and ReadVarBytes the result of reading no bytes (C215_first_byte_violated); ReadSerializableArray returns a shorter list (C215_array_item_violated). Proved over every stream object: all calls that do not begin with ReadByte pass every exception on, all others every exception but that of their first byte (C215_reported_partial), and so do whole programs (C215_program_reports_partial)."
 },
 "C216": {
  "note": "Violated by the calls that do not check how many bytes they got: ReadBytes, ReadVarBytes, ReadFixedString, ReadHashes, Read2000256List (C216_varbytes_violated: from a stream that delivers one byte at a time ReadVarBytes returns the first byte). Proved for all other calls and all programs of them (C216_checked_partial)."
 },
 "C217": {
  "note": "The stream is an arbitrary object that answers each write with a number or an exception; exceptions are those of the model's Err type. Programs that catch the exception and go on are outside this property (C212 covers them for io.BytesIO)."
 },
 "C218": {
  "note": "Violated: the number returned by stream.write is ignored inside WriteVarInt, WriteVarBytes, UIntBase.Serialize and others (C218_lost_violated: bytes are lost without an exception). Proved: WriteBytes and the fixed-width numbers return the number the stream answered (C218_count_partial)."
 },
 "C219": {
  "note": "Both use the one position of io.BytesIO. Violated: what is written takes the place of unread bytes (C219_unread_violated), and the reader finds the end of the stream instead of what was written, which reads as 0 or empty (C219_written_violated). If everything has been read, the writer appends (C219_all_read_partial)."
 },
 "C221": {
  "note": "Violated: beside None, byte strings, UInts, points, amounts and texts that are not hexadecimal v == y raises; an amount is 'equal' to the field value that holds its number of satoshis while the value compared with the amount raises; values cannot be hashed (C221_violated). Proved: what raises, exactly, on either side (C221_raises_iff_partial), and the right answer for everything that stands for a number (C221_numbers_partial). Values of two fields: C120, C121."
 },
 "C222": {
  "note": "Holds for sum(l, start) with a start of the class (C222_with_start_partial). Without a start sum of amounts raises TypeError (no __radd__) and sum of BigIntegers is a plain int (_violated)."
 },
 "C223": {
  "note": "Holds for amounts. Hashes: the lowest byte is ignored, so max and min return the first of hashes that agree in the others (_violated; exact result in C223_hashes_partial). Public keys: a key and its negative are not ordered (_violated; exact result in C223_points_partial)."
 },
 "C224": {
  "note": "Holds for BigIntegers. Amounts, hashes, field values and points define neither __bool__ nor __len__ and are always true (_violated)."
 },
 "C226": {
  "note": "Proved over the histories of C91; the signature packages are arbitrary functions of the curve in force."
 },
 "C227": {
  "note": "Violated for every message: the method calls Hash160Bytes and returns the 20 raw bytes (C227_violated); their hexadecimal text is what Crypto.Hash160 returns (C227_digest_partial)."
 }
}
