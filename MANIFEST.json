{
 "claims": [
  {
   "property": "C01",
   "status": "proved",
   "theorems": [
    "Neo.Props.C01_int_roundtrip",
    "Neo.Props.C01_int_rejected"
   ],
   "note": ""
  },
  {
   "property": "C02",
   "status": "proved",
   "theorems": [
    "Neo.Props.C02_int_layout",
    "Neo.Props.C02_layout_unique",
    "Neo.Props.C02_default_order"
   ],
   "note": ""
  },
  {
   "property": "C03",
   "status": "proved",
   "theorems": [
    "Neo.Props.C03_varint_roundtrip"
   ],
   "note": "Proved for every v < 2^64 and every max >= v; the default max is C81."
  },
  {
   "property": "C04",
   "status": "proved",
   "theorems": [
    "Neo.Props.C04_varint_length",
    "Neo.Props.C04_varint_prefix_free",
    "Neo.Props.C04_varint_no_shorter"
   ],
   "note": ""
  },
  {
   "property": "C05",
   "status": "partial",
   "theorems": [
    "Neo.Props.C05_varint_rejects_partial",
    "Neo.Props.C05_varint_too_large_violated"
   ],
   "note": "Negatives and non-integers: proved. False for v >= 2^64: a stray 0xff byte stays on the stream (_violated)."
  },
  {
   "property": "C06",
   "status": "partial",
   "theorems": [
    "Neo.Props.C06_varint_subclass_partial",
    "Neo.Props.C06_small_subclass_violated"
   ],
   "note": "Proved for values >= 0xfd; false below (BigInteger/bool write nothing at all, _violated)."
  },
  {
   "property": "C07",
   "status": "proved",
   "theorems": [
    "Neo.Props.C07_readVarInt_bounded",
    "Neo.Props.C07_readVarInt_eof"
   ],
   "note": ""
  },
  {
   "property": "C08",
   "status": "proved",
   "theorems": [
    "Neo.Props.C08_varbytes_roundtrip",
    "Neo.Props.C08_varbytes_bound"
   ],
   "note": ""
  },
  {
   "property": "C09",
   "status": "proved",
   "theorems": [
    "Neo.Props.C09_varstring_roundtrip",
    "Neo.Props.C09_varstring_bytes_roundtrip",
    "Neo.Props.C09_varstring_injective"
   ],
   "note": ""
  },
  {
   "property": "C10",
   "status": "partial",
   "theorems": [
    "Neo.Props.C10_layout_partial",
    "Neo.Props.C10_roundtrip_iff_partial",
    "Neo.Props.C10_fixedString_partial",
    "Neo.Props.C10_fixedString_hex_violated"
   ],
   "note": "Proved for strings that are not even-length ASCII-hex; false exactly on those (WriteBytes unhexes; _violated)."
  },
  {
   "property": "C11",
   "status": "partial",
   "theorems": [
    "Neo.Props.C11_writeBytes_exact_partial",
    "Neo.Props.C11_writeBytes_hex_violated"
   ],
   "note": "Property false as stated (_violated): even-length ASCII hex text is unhexed. The exact exception set is C83."
  },
  {
   "property": "C12",
   "status": "partial",
   "theorems": [
    "Neo.Props.C12_roundtrip_iff_partial",
    "Neo.Props.C12_uint_roundtrip_partial",
    "Neo.Props.C12_uint160_hex_violated",
    "Neo.Props.C12_uint256_hex_violated",
    "Neo.Props.C12_uint_rejected",
    "Neo.Props.C12_serialize_roundtrip_partial",
    "Neo.Props.C12_serialize_hex_violated"
   ],
   "note": "Proved for contents that are not all-ASCII-hex; false for all-ASCII-hex contents (_violated)."
  },
  {
   "property": "C13",
   "status": "proved",
   "theorems": [
    "Neo.Props.C13_reading_is_safe",
    "Neo.Props.C13_raw_reads_return_slice",
    "Neo.Props.C13_prefixed_reads_return_suffix",
    "Neo.Props.C13_fixedString_returns_slice"
   ],
   "note": ""
  },
  {
   "property": "C14",
   "status": "proved",
   "theorems": [
    "Neo.Props.C14_writing_appends"
   ],
   "note": ""
  },
  {
   "property": "C15",
   "status": "partial",
   "theorems": [
    "Neo.Props.C15_records_partial",
    "Neo.Props.C15_hex_violated"
   ],
   "note": "All records of all field types, any nesting, except hex-text contents of UInt/hash fields (defect C12/C17) and VarInts above sys.maxsize (defect C03). Records with such a UInt are not read back (C15_hex_violated)."
  },
  {
   "property": "C16",
   "status": "proved",
   "theorems": [
    "Neo.Props.C16_array_roundtrip",
    "Neo.Props.C16_none_array",
    "Neo.Props.C16_array_stops_at_first_failure",
    "Neo.Props.C16_array_bounded"
   ],
   "note": ""
  },
  {
   "property": "C17",
   "status": "partial",
   "theorems": [
    "Neo.Props.C17_hashes_layout_partial",
    "Neo.Props.C17_roundtrip_iff_partial",
    "Neo.Props.C17_hashes_roundtrip_partial",
    "Neo.Props.C17_hash_hex_violated"
   ],
   "note": "Proved for hashes that are not all-ASCII-hex; false for those (_violated)."
  },
  {
   "property": "C18",
   "status": "partial",
   "theorems": [
    "Neo.Props.C18_reader_layout",
    "Neo.Props.C18_writer_layout_partial",
    "Neo.Props.C18_list2000_violated"
   ],
   "note": "False for every list (_violated): the writer writes 32 raw bytes per hash, the reader expects 64 hex characters. Each side's true layout is proved."
  },
  {
   "property": "C19",
   "status": "proved",
   "theorems": [
    "Neo.Props.C19_fixed8_roundtrip",
    "Neo.Props.C19_fixed8_rejected"
   ],
   "note": ""
  },
  {
   "property": "C20",
   "status": "proved",
   "theorems": [
    "Neo.Props.C20_safeRead",
    "Neo.Props.C20_read",
    "Neo.Props.C20_read_edge"
   ],
   "note": ""
  },
  {
   "property": "C21",
   "status": "proved",
   "theorems": [
    "Neo.Props.C21_bool_roundtrip",
    "Neo.Props.C21_bool_false",
    "Neo.Props.C21_char_roundtrip",
    "Neo.Props.C21_double_roundtrip",
    "Neo.Props.C21_readByte_total",
    "Neo.Props.C21_bool_layout"
   ],
   "note": ""
  },
  {
   "property": "C22",
   "status": "proved",
   "theorems": [
    "Neo.Props.C22_swap32_reverses",
    "Neo.Props.C22_swap32_involution",
    "Neo.Props.C22_swap32_rejects"
   ],
   "note": ""
  },
  {
   "property": "C23",
   "status": "partial",
   "theorems": [
    "Neo.Props.C23_convert160_partial",
    "Neo.Props.C23_convert256_partial",
    "Neo.Props.C23_convert160_violated",
    "Neo.Props.C23_convert256_violated",
    "Neo.Props.C23_sign_violated"
   ],
   "note": "Proved for v >= -2^19 (-2^31); exactly where it fails below is the _violated theorem."
  },
  {
   "property": "C24",
   "status": "proved",
   "theorems": [
    "Neo.Props.C24_roundtrip_signed",
    "Neo.Props.C24_roundtrip_unsigned",
    "Neo.Props.C24_injective",
    "Neo.Props.C24_fromBytes_denotes"
   ],
   "note": ""
  },
  {
   "property": "C25",
   "status": "partial",
   "theorems": [
    "Neo.Props.C25_minimal_negative_iff_partial",
    "Neo.Props.C25_minus_one_violated"
   ],
   "note": "The exact condition for negatives is proved (iff); it fails e.g. for -1 (ff ff instead of ff). Non-negatives and the two's complement property are C101."
  },
  {
   "property": "C26",
   "status": "proved",
   "theorems": [
    "Neo.Props.C26_ring_ops",
    "Neo.Props.C26_division",
    "Neo.Props.C26_floor",
    "Neo.Props.C26_shifts",
    "Neo.Props.C26_errors",
    "Neo.Props.C26_sign"
   ],
   "note": ""
  },
  {
   "property": "C27",
   "status": "proved",
   "theorems": [
    "Neo.Props.C27_exact",
    "Neo.Props.C27_balance",
    "Neo.Props.C27_order_independent",
    "Neo.Props.C27_order"
   ],
   "note": ""
  },
  {
   "property": "C28",
   "status": "partial",
   "theorems": [
    "Neo.Props.C28_floor_ceil_toInt_partial",
    "Neo.Props.C28_large_violated",
    "Neo.Props.C28_large_ceil_violated",
    "Neo.Props.C28_every_large_violated",
    "Neo.Props.C28_iff_partial"
   ],
   "note": "Proved for |v| <= 2^27 units (above total supply), and that bound is the best possible: from there to 2^53 units Floor, ToInt and Ceil are wrong beside every whole number (C28_every_large_violated). For all amounts below 2^52 units (64-bit amounts are below 2^37) C28_iff_partial says exactly for which ones each of the three is right."
  },
  {
   "property": "C29",
   "status": "partial",
   "theorems": [
    "Neo.Props.C29_truediv_partial",
    "Neo.Props.C29_truediv_violated",
    "Neo.Props.C29_div_one_iff_partial",
    "Neo.Props.C29_iff_partial"
   ],
   "note": "Exact for dividends below 2^53, false beyond (_violated). C29_iff_partial says exactly for which amounts it is right, for all amounts whose quotient is below 2^1000; for the divisor 1 also C29_div_one_iff_partial. // and %, and division by zero: C84."
  },
  {
   "property": "C30",
   "status": "partial",
   "theorems": [
    "Neo.Props.C30_float_partial",
    "Neo.Props.C30_float_negative_partial",
    "Neo.Props.C30_float_violated",
    "Neo.Props.C30_float_iff_partial",
    "Neo.Props.C30_float_negative_iff_partial",
    "Neo.Props.C30_scale_exists",
    "Neo.Props.C30_float_large_iff_partial",
    "Neo.Props.C30_float_supply_partial",
    "Neo.Props.C30_float_supply_near_partial",
    "Neo.Props.C30_float_large_negative_iff_partial"
   ],
   "note": "False as stated (0.00000029 -> 28; 90000000.00000002 -> ...01). Exact condition for every amount: below 2^52 satoshis C30_float_iff_partial (at most one satoshi lost), from there to 2^53 units, beyond 64 bits, C30_float_large_iff_partial, and negatives of both. In units up to the total supply (C30_float_supply_partial): right for all amounts between 2^52 satoshis and 2^26 units, for even numbers of satoshis from 2^53 on, and in between by v * 2^26 mod 10^8; never more than a satoshi off. ints and Decimals: C85."
  },
  {
   "property": "C31",
   "status": "partial",
   "theorems": [
    "Neo.Props.C31_raises_iff_partial",
    "Neo.Props.C31_nan_inf_violated",
    "Neo.Props.C31_nan_text_violated",
    "Neo.Props.C31_whole_exact_partial",
    "Neo.Props.C31_whole_violated",
    "Neo.Props.C31_whole_iff_partial"
   ],
   "note": "Raising characterised exactly (nan, inf, overflow; _violated); a whole number n of units is read exactly if and only if n*5^8 has at most 53 significant bits and n*10^8 < 2^1024, or n is too large for a float (all ints: C31_whole_iff_partial), in particular up to 2^53/5^8 units. None and require_positive: C86."
  },
  {
   "property": "C32",
   "status": "partial",
   "theorems": [
    "Neo.Props.C32_exact_partial",
    "Neo.Props.C32_digits_partial",
    "Neo.Props.C32_close_partial",
    "Neo.Props.C32_large_violated",
    "Neo.Props.C32_one_right_partial",
    "Neo.Props.C32_alone_partial"
   ],
   "note": "Exact for |amount| < 2^26 units (67,108,864) and for every 64-bit amount of at most 15 significant digits, and the number denoted is within 2^-51 relative error for every 64-bit amount; violated from 2^26 units on, where two amounts one satoshi apart print the same text. repr(float) is modelled as: a shortest decimal that rounds to the double (contract Dtoa, proved satisfiable), formatted as CPython does (exponent notation below 1e-4). Up to 2^63 in magnitude the text always denotes an amount, and of all amounts with the same text exactly one is the one denoted (C32_one_right_partial); an amount that shares its float with no other is printed right (C32_alone_partial). Outside 64 bits nothing is claimed."
  },
  {
   "property": "C33",
   "status": "proved",
   "theorems": [
    "Neo.Props.C33_parse_iff",
    "Neo.Props.C33_parse_rejects",
    "Neo.Props.C33_parse_toString",
    "Neo.Props.C33_toString_parse",
    "Neo.Props.C33_toString_injective"
   ],
   "note": ""
  },
  {
   "property": "C34",
   "status": "partial",
   "theorems": [
    "Neo.Props.C34_hash_partial",
    "Neo.Props.C34_alias_violated"
   ],
   "note": "Proved for all histories in which no client mutates a byte array an object aliases; false otherwise (_violated): the cached hash goes stale. See also C87."
  },
  {
   "property": "C35",
   "status": "partial",
   "theorems": [
    "Neo.Props.C35_compare_exact_partial",
    "Neo.Props.C35_compare_partial",
    "Neo.Props.C35_low_byte_violated"
   ],
   "note": "CompareTo ignores byte 0: exact characterisation proved (compares value/256); false for values differing only in the lowest byte (_violated). What the operators do satisfy is C88."
  },
  {
   "property": "C36",
   "status": "partial",
   "theorems": [
    "Neo.Props.C36_size_partial",
    "Neo.Props.C36_short_deserialize_violated",
    "Neo.Props.C36_object_shrinks_violated"
   ],
   "note": "Proved for all histories with enough bytes; Deserialize on a short stream silently shrinks the object (_violated). Constructors: C89."
  },
  {
   "property": "C37",
   "status": "proved",
   "theorems": [
    "Neo.Props.C37_encode",
    "Neo.Props.C37_decode",
    "Neo.Props.C37_roundtrip",
    "Neo.Props.C37_check"
   ],
   "note": ""
  },
  {
   "property": "C38",
   "status": "proved",
   "theorems": [
    "Neo.Props.C38_address",
    "Neo.Props.C38_roundtrip",
    "Neo.Props.C38_injective"
   ],
   "note": ""
  },
  {
   "property": "C39",
   "status": "proved",
   "theorems": [
    "Neo.Props.C39_generated_valid"
   ],
   "note": ""
  },
  {
   "property": "C40",
   "status": "partial",
   "theorems": [
    "Neo.Props.C40_accepted_partial",
    "Neo.Props.C40_accepts_foreign_violated"
   ],
   "note": "The accepted set is characterised exactly: version bytes 22, 23 and 24 whose 34-character text starts with 'A' pass, so it is false as stated (_violated). Totality and completeness: C90."
  },
  {
   "property": "C41",
   "status": "partial",
   "theorems": [
    "Neo.Props.C41_accepted_partial",
    "Neo.Props.C41_rejects_foreign_violated"
   ],
   "note": "Exact characterisation of what is accepted; the version-byte test is always truthy, any payload length passes and malformed text raises IndexError/ValueError rather than ConversionError (_violated)."
  },
  {
   "property": "C42",
   "status": "proved",
   "theorems": [
    "Neo.Props.C42_scripthash_to_address",
    "Neo.Props.C42_failures",
    "Neo.Props.C42_both_orders"
   ],
   "note": ""
  },
  {
   "property": "C43",
   "status": "proved",
   "theorems": [
    "Neo.Props.C43_roundtrip"
   ],
   "note": "For every key pair that was constructed, from 32, 96 or 104 bytes."
  },
  {
   "property": "C44",
   "status": "proved",
   "theorems": [
    "Neo.Props.C44_accepts",
    "Neo.Props.C44_rejects"
   ],
   "note": "Exactly the Base58Check texts of 0x80 k 0x01 are accepted; everything else raises ValueError (TypeError for None)."
  },
  {
   "property": "C45",
   "status": "partial",
   "theorems": [
    "Neo.Props.C45_roundtrip_partial",
    "Neo.Props.C45_embedded_violated"
   ],
   "note": "Round trip proved for every key pair whose public key is the derived one; fails for 96/104-byte keys whose private key is not below n (C45_embedded_violated). For 32-byte keys 1..n-1 it is C104. scrypt, AES and NFC are arbitrary functions (AES: decryption inverts encryption)."
  },
  {
   "property": "C46",
   "status": "partial",
   "theorems": [
    "Neo.Props.C46_flag_violated",
    "Neo.Props.C102_address"
   ],
   "note": "False as stated: header and flag bytes are ignored (C46_flag_violated). The part about the address is C102."
  },
  {
   "property": "C47",
   "status": "proved",
   "theorems": [
    "Neo.Props.C47_lengths",
    "Neo.Props.C47_embedded",
    "Neo.Props.C47_derived"
   ],
   "note": "The derived key is stated relative to DerivesPublicKeys; Neo.pyBtc_derives proves that the published bitcoin functions satisfy it. Keys from the group order on raise."
  },
  {
   "property": "C48",
   "status": "proved",
   "theorems": [
    "Neo.Props.C48_agree",
    "Neo.Props.C48_address",
    "Neo.Props.C48_derived"
   ],
   "note": "Agreement for every encoded key; for every key with 256-bit coordinates other than Infinity the address exists, is the specified one, has 34 characters and is valid."
  },
  {
   "property": "C49",
   "status": "proved",
   "theorems": [
    "Neo.Props.C49_xor",
    "Neo.Props.C49_laws"
   ],
   "note": ""
  },
  {
   "property": "C50",
   "status": "proved",
   "theorems": [
    "Neo.Props.C50_base256"
   ],
   "note": ""
  },
  {
   "property": "C51",
   "status": "proved",
   "theorems": [
    "Neo.Props.C51_hex_forms",
    "Neo.Props.C51_to_script_hash",
    "Neo.Props.C51_script_hash_length",
    "Neo.Props.C51_random_key"
   ],
   "note": "Hash functions are parameters with output-length laws (structure Prims)."
  },
  {
   "property": "C52",
   "status": "partial",
   "theorems": [
    "Neo.Props.C52_fresh_process_violated",
    "Neo.Props.C52_sign_violated",
    "Neo.Props.C52_secp256k1_violated",
    "Neo.Props.C91_same_parameters",
    "Neo.Props.C91_after_setup",
    "Neo.Props.C91_keyPair"
   ],
   "note": "False in a fresh process, where secp256k1 is in force (C52_fresh_process_violated, C52_sign_violated with a computed signature). True after any set-up: C91."
  },
  {
   "property": "C53",
   "status": "partial",
   "theorems": [
    "Neo.Props.C53_total_partial",
    "Neo.Props.C53_total_violated",
    "Neo.Props.C53_true_if_valid_partial"
   ],
   "note": "Returns a bool exactly for the key arguments of C53_total_partial and raises for the others (C53_total_violated). Valid signatures are accepted for keys with coordinates below n; the packages reject others (C80_large_key_violated). Exact acceptance condition: C93; Sign: C92."
  },
  {
   "property": "C54",
   "status": "proved",
   "theorems": [
    "Neo.Props.C54_root",
    "Neo.Props.C54_tree_root",
    "Neo.Props.C54_empty"
   ],
   "note": "For an arbitrary hash function and every list; int((len+1)/2) modelled exactly (true below 2^53 leaves)."
  },
  {
   "property": "C55",
   "status": "partial",
   "theorems": [
    "Neo.Props.C55_root_binds_violated",
    "Neo.Props.C55_inner_level_violated",
    "Neo.Props.C55_same_root_partial"
   ],
   "note": "Full statement is false of the code: repeating the last element of an odd list (C55_root_binds_violated) or replacing the list by an inner level (C55_inner_level_violated) keeps the root. For lists of equal length: C103. C55_same_root_partial says exactly which lists share a root: those whose completed trees have a common level (SameTree of Spec/MerkleFill), up to an explicit hash collision."
  },
  {
   "property": "C56",
   "status": "proved",
   "theorems": [
    "Neo.Props.C56_depth"
   ],
   "note": "Depth and the distance of every leaf; the loop's fuel provably never runs out."
  },
  {
   "property": "C57",
   "status": "proved",
   "theorems": [
    "Neo.Props.C57_to_hash_array"
   ],
   "note": "The returned list is duplicate-free with exactly the input hashes; order left open as in Python."
  },
  {
   "property": "C58",
   "status": "partial",
   "theorems": [
    "Neo.Props.C58_trim_partial",
    "Neo.Props.C58_iff_partial",
    "Neo.Props.C58_trim_violated"
   ],
   "note": "False of the code: both recursive calls use index*2 (MerkleTree.py:188-189), so only flags 0 and 1 matter. C58_iff_partial: the intended effect results exactly if all flags are zero, or no bottom pair has two zero flags, or there are at most 2 leaves; concrete counterexample C58_trim_violated. What happens for every tree and flags: C94."
  },
  {
   "property": "C59",
   "status": "proved",
   "theorems": [
    "Neo.Props.C59_links"
   ],
   "note": "All allocated nodes of every built tree."
  },
  {
   "property": "C60",
   "status": "partial",
   "theorems": [
    "Neo.Props.C60_modinv_partial",
    "Neo.Props.C60_modinv_negative_violated",
    "Neo.Props.C60_iff_partial"
   ],
   "note": "Proved for positive x; for every negative x it returns an inverse of -x (_violated). GCD: C95."
  },
  {
   "property": "C61",
   "status": "partial",
   "theorems": [
    "Neo.Props.C61_division_partial",
    "Neo.Props.C61_division_by_zero_violated",
    "Neo.Props.C61_division_negative_violated",
    "Neo.Props.C61_iff_partial"
   ],
   "note": "Proved for positive divisors; division by zero returns 0 instead of raising, division by a negative representative has the wrong sign (_violated). The other operators: C96."
  },
  {
   "property": "C62",
   "status": "proved",
   "theorems": [
    "Neo.Props.C62_group_law",
    "Neo.Props.C62_laws"
   ],
   "note": ""
  },
  {
   "property": "C63",
   "status": "partial",
   "theorems": [
    "Neo.Props.C63_infinity_violated",
    "Neo.Props.C105_finite"
   ],
   "note": "For every finite P, P - Infinity is wrong, because -Infinity is the pair (0, p), not recognised as Infinity (_violated). Finite subtrahends: C105."
  },
  {
   "property": "C64",
   "status": "partial",
   "theorems": [
    "Neo.Props.C64_multiple_partial",
    "Neo.Props.C64_range_partial",
    "Neo.Props.C64_small_scalars_violated",
    "Neo.Props.C64_computed_partial",
    "Neo.Props.C64_every_key_violated"
   ],
   "note": "Proved: what is computed instead (closed form for |n| < 2^53), that it is a point of the curve below 2^1025 - 2^971 and that OverflowError is raised from there on. For no key 0 < |n| < group order is calcpub(n) the n-fold sum of the base point (C64_every_key_violated); see also C122, C123, C124. What is computed instead is C64_computed_partial."
  },
  {
   "property": "C65",
   "status": "partial",
   "theorems": [
    "Neo.Props.C65_complete_partial",
    "Neo.Props.C65_incomplete_violated",
    "Neo.Props.C65_found_iff_partial"
   ],
   "note": "Exactly when a root is found (C65_found_iff_partial): p = 2 or p = 3 mod 4, reduced v, and a root exists. For p = 1 mod 4 it never finds a root (the Lucas loop is dead code) and unreduced v always fail (_violated). Soundness: C97."
  },
  {
   "property": "C66",
   "status": "partial",
   "theorems": [
    "Neo.Props.C66_hex_round_trip_partial",
    "Neo.Props.C66_infinity_violated",
    "Neo.Props.C66_uncompressed_stream_violated"
   ],
   "note": "Hex round trip for finite points proved. decode_from_hex of the encoding of Infinity raises, and uncompressed serialisations cannot be read (_violated). Stream round trip and injectivity: C98."
  },
  {
   "property": "C67",
   "status": "proved",
   "theorems": [
    "Neo.Props.C67_decode_on_curve",
    "Neo.Props.C67_deserialize_on_curve",
    "Neo.Props.C67_accepts_iff"
   ],
   "note": ""
  },
  {
   "property": "C68",
   "status": "partial",
   "theorems": [
    "Neo.Props.C68_embedded_partial",
    "Neo.Props.C68_lengths_violated",
    "Neo.Props.C68_text_violated"
   ],
   "note": "96/104-byte keys: proved. All 33/65-byte keys raise binascii.Error and all 64/72-byte keys TypeError (_violated). No text is decoded either: hex text of a key gives None, texts of the other lengths raise (C68_text_violated)."
  },
  {
   "property": "C69",
   "status": "partial",
   "theorems": [
    "Neo.Props.C69_total_violated",
    "Neo.Props.C99_partial_order"
   ],
   "note": "Not total: P and -P are never comparable (_violated). It is a partial order: C99."
  },
  {
   "property": "C70",
   "status": "partial",
   "theorems": [
    "Neo.Props.C70_crack2_partial",
    "Neo.Props.C70_crack2_sign_violated"
   ],
   "note": "On plain integers proved for s2 < s1; with s1 < s2 the nonce comes out negated (_violated). On the field values sign returns: C100."
  },
  {
   "property": "C71",
   "status": "partial",
   "theorems": [
    "Neo.Props.C71_sign_verify_partial",
    "Neo.Props.C71_secp256r1_violated"
   ],
   "note": "sign/verify of ECDSA.secp256r1() always raise (_violated). Proved: with the order as an integer and a correct scalar multiplication in place of the real one (C64), verify accepts every signature with s != 0."
  },
  {
   "property": "C72",
   "status": "proved",
   "theorems": [
    "Neo.Props.C72_lucas",
    "Neo.Props.C72_rejects"
   ],
   "note": ""
  },
  {
   "property": "C73",
   "status": "partial",
   "theorems": [
    "Neo.Props.C73_small_partial",
    "Neo.Props.C73_out_of_range_violated",
    "Neo.Props.C73_values_partial"
   ],
   "note": "Proved for sizes below 8 bits; from 8 bits on some random outcome is out of range (_violated). Bound 256^(s/8+1) proved for all sizes."
  },
  {
   "property": "C74",
   "status": "partial",
   "theorems": [
    "Neo.Props.C74_mul_raw_partial",
    "Neo.Props.C74_mul_one_violated",
    "Neo.Props.C74_mul_iff_partial",
    "Neo.Props.C74_div_one_violated",
    "Neo.Props.C74_pow_raw_partial"
   ],
   "note": "False for every nonzero amount (_violated): raw satoshi counts are multiplied/divided. What is computed is characterised."
  },
  {
   "property": "C75",
   "status": "partial",
   "theorems": [
    "Neo.Props.C75_sqrt_partial",
    "Neo.Props.C75_unsupported",
    "Neo.Props.C75_sqrt_p256_violated",
    "Neo.Props.C75_iff_partial"
   ],
   "note": "Proved for p < 2^52; for p = 3 mod 4 it holds exactly if (p+1)/4 has at most 53 significant bits and is below 2^1024 (C75_iff_partial); so it fails for the prime of secp256r1, whose exponent (p+1)/4 is rounded to a float (_violated)."
  },
  {
   "property": "C76",
   "status": "partial",
   "theorems": [
    "Neo.Props.C76_double_hex_violated",
    "Neo.Props.C76_text_partial"
   ],
   "note": "ToString is hex of hex (_violated); partial: one layer of unhexlify gives the decodable encoding, and Infinity round-trips."
  },
  {
   "property": "C77",
   "status": "partial",
   "theorems": [
    "Neo.Props.C77_noncanonical_violated",
    "Neo.Props.C77_canonical_partial"
   ],
   "note": "Violated by coordinates x >= p (x = 5 and x = 5 + p); proved for reduced coordinates."
  },
  {
   "property": "C78",
   "status": "partial",
   "theorems": [
    "Neo.Props.C78_truncated_violated",
    "Neo.Props.C78_stream_iff_partial"
   ],
   "note": "End of stream gives Infinity, and short reads are accepted (_violated). C78_stream_iff_partial says exactly which truncated keys are accepted: those whose remaining bytes, read as a big-endian number, are the x of a curve point."
  },
  {
   "property": "C79",
   "status": "partial",
   "theorems": [
    "Neo.Props.C79_wide_partial",
    "Neo.Props.C79_decompress_partial",
    "Neo.Props.C79_decompress_violated"
   ],
   "note": "Proved for p < 2^52, and for p = 3 mod 4 if (p+1)/4 has at most 53 significant bits and is below 2^1024 (C79_wide_partial); on secp256r1 the decompressed base point is not on the curve (_violated)."
  },
  {
   "property": "C80",
   "status": "partial",
   "theorems": [
    "Neo.Props.C80_any_form_partial",
    "Neo.Props.C80_sign_partial",
    "Neo.Props.C80_round_trip_partial",
    "Neo.Props.C80_key_pair_partial",
    "Neo.Props.C80_large_key_violated",
    "Neo.Props.C80_large_nonce_violated"
   ],
   "note": "Proved for the packages bitcoin and ecdsa as modelled, for every nonce not divisible by n: the answer is True exactly if r is in 1..n-1, s is not 0 and the public key's coordinates are below n (C80_round_trip_partial, C80_key_pair_partial). False for some private keys (C80_large_key_violated) and some nonces (C80_large_nonce_violated). For every form of the private key: C80_any_form_partial."
  },
  {
   "property": "C81",
   "status": "partial",
   "theorems": [
    "Neo.Props.C81_default_bound_partial",
    "Neo.Props.C81_default_bound_violated"
   ],
   "note": "Proved for v < 2^63; false for every v from 2^63 on, since the default max is sys.maxsize (_violated)."
  },
  {
   "property": "C82",
   "status": "proved",
   "theorems": [
    "Neo.Props.C82_too_long"
   ],
   "note": ""
  },
  {
   "property": "C83",
   "status": "proved",
   "theorems": [
    "Neo.Props.C83_raw_exact",
    "Neo.Props.C83_as_given_iff"
   ],
   "note": ""
  },
  {
   "property": "C84",
   "status": "proved",
   "theorems": [
    "Neo.Props.C84_floordiv_mod",
    "Neo.Props.C84_zero"
   ],
   "note": ""
  },
  {
   "property": "C85",
   "status": "proved",
   "theorems": [
    "Neo.Props.C85_int",
    "Neo.Props.C85_decimal",
    "Neo.Props.C85_decimal_truncates",
    "Neo.Props.C85_special"
   ],
   "note": ""
  },
  {
   "property": "C86",
   "status": "proved",
   "theorems": [
    "Neo.Props.C86_not_a_number",
    "Neo.Props.C86_require_positive"
   ],
   "note": ""
  },
  {
   "property": "C87",
   "status": "proved",
   "theorems": [
    "Neo.Props.C87_eq_iff",
    "Neo.Props.C87_hash_code",
    "Neo.Props.C87_hash_of_contents"
   ],
   "note": ""
  },
  {
   "property": "C88",
   "status": "proved",
   "theorems": [
    "Neo.Props.C88_operators",
    "Neo.Props.C88_compare_rejects"
   ],
   "note": ""
  },
  {
   "property": "C89",
   "status": "proved",
   "theorems": [
    "Neo.Props.C89_construct_iff",
    "Neo.Props.C89_construct_refusals",
    "Neo.Props.C89_construct_size"
   ],
   "note": ""
  },
  {
   "property": "C90",
   "status": "proved",
   "theorems": [
    "Neo.Props.C90_total",
    "Neo.Props.C90_accepts_addresses"
   ],
   "note": ""
  },
  {
   "property": "C91",
   "status": "proved",
   "theorems": [
    "Neo.Props.C91_same_parameters",
    "Neo.Props.C91_after_setup",
    "Neo.Props.C91_keyPair"
   ],
   "note": ""
  },
  {
   "property": "C92",
   "status": "proved",
   "theorems": [
    "Neo.Props.C92_sign"
   ],
   "note": "The curve package's ecdsa_raw_sign is an arbitrary function here; its model is in C80."
  },
  {
   "property": "C93",
   "status": "proved",
   "theorems": [
    "Neo.Props.C93_true_only_if_valid",
    "Neo.Props.C93_true_iff"
   ],
   "note": "Relative to the contract VerifiesEcdsa of the ecdsa package, which the modelled package meets (pkgBtc_verifies); 33-byte keys in a process where the curve was set up (C91). Includes correctness of point decompression."
  },
  {
   "property": "C94",
   "status": "proved",
   "theorems": [
    "Neo.Props.C94_trim_effect"
   ],
   "note": ""
  },
  {
   "property": "C95",
   "status": "proved",
   "theorems": [
    "Neo.Props.C95_gcd"
   ],
   "note": ""
  },
  {
   "property": "C96",
   "status": "proved",
   "theorems": [
    "Neo.Props.C96_ring_ops"
   ],
   "note": ""
  },
  {
   "property": "C97",
   "status": "proved",
   "theorems": [
    "Neo.Props.C97_sound"
   ],
   "note": ""
  },
  {
   "property": "C98",
   "status": "proved",
   "theorems": [
    "Neo.Props.C98_serialize",
    "Neo.Props.C98_injective"
   ],
   "note": ""
  },
  {
   "property": "C99",
   "status": "proved",
   "theorems": [
    "Neo.Props.C99_partial_order"
   ],
   "note": ""
  },
  {
   "property": "C100",
   "status": "proved",
   "theorems": [
    "Neo.Props.C100_crack1",
    "Neo.Props.C100_crack2"
   ],
   "note": ""
  },
  {
   "property": "C101",
   "status": "proved",
   "theorems": [
    "Neo.Props.C101_twos",
    "Neo.Props.C101_minimal_nonneg"
   ],
   "note": ""
  },
  {
   "property": "C102",
   "status": "proved",
   "theorems": [
    "Neo.Props.C102_address"
   ],
   "note": "Relative to DerivesPublicKeys (met by the modelled bitcoin package) and arbitrary scrypt/AES/NFC."
  },
  {
   "property": "C103",
   "status": "proved",
   "theorems": [
    "Neo.Props.C103_root_binds"
   ],
   "note": "For an arbitrary hash function of fixed output length."
  },
  {
   "property": "C104",
   "status": "proved",
   "theorems": [
    "Neo.Props.C104_private_keys",
    "Neo.Props.C104_short"
   ],
   "note": "Relative to DerivesPublicKeys (met by the modelled bitcoin package); scrypt, AES and NFC arbitrary (AES: decryption inverts encryption)."
  },
  {
   "property": "C105",
   "status": "proved",
   "theorems": [
    "Neo.Props.C105_finite"
   ],
   "note": ""
  },
  {
   "property": "C106",
   "status": "proved",
   "theorems": [
    "Neo.Props.C106_float_nearest",
    "Neo.Props.C106_float_too_large",
    "Neo.Props.C106_float_exact"
   ],
   "note": "The meaning of bit patterns (IEEE-754) is the decode function of Model/Floats; rounding is specified independently in Spec/Float."
  },
  {
   "property": "C107",
   "status": "proved",
   "theorems": [
    "Neo.Props.C107_float_read_write",
    "Neo.Props.C107_double_read_write"
   ],
   "note": ""
  },
  {
   "property": "C108",
   "status": "proved",
   "theorems": [
    "Neo.Props.C108_double_exact"
   ],
   "note": ""
  },
  {
   "property": "C109",
   "status": "proved",
   "theorems": [
    "Neo.Props.C109_int_double_nearest",
    "Neo.Props.C109_int_double_exact",
    "Neo.Props.C109_refused"
   ],
   "note": ""
  },
  {
   "property": "C110",
   "status": "partial",
   "theorems": [
    "Neo.Props.C110_int_float_iff_partial",
    "Neo.Props.C110_int_float_partial",
    "Neo.Props.C110_int_float_twice_partial",
    "Neo.Props.C110_double_rounding_violated"
   ],
   "note": "Fails above 2^53 because struct rounds the int to binary64 first and to binary32 second (C110_double_rounding_violated: 2^60+2^36+1). Proved: nearest up to 2^53, the exact two-step rounding for all ints below 2^128-2^103-2^74, struct.error from there on (so the last 2^74 ints before 2^128-2^103 are refused too). Exact condition for every int that is written (C110_int_float_iff_partial): wrong iff its 53-bit rounding is halfway between two binary32 numbers and the int lies on the other side of it than the number read back."
  },
  {
   "property": "C111",
   "status": "proved",
   "theorems": [
    "Neo.Props.C111_wallet",
    "Neo.Props.C111_no_wallet",
    "Neo.Props.C111_main"
   ],
   "note": "Assumes of the bitcoin package only what DerivesPublicKeys says (realised by the concrete model, see Proofs/Bitcoin.lean)."
  },
  {
   "property": "C112",
   "status": "proved",
   "theorems": [
    "Neo.Props.C112_version",
    "Neo.Props.C112_settings"
   ],
   "note": ""
  },
  {
   "property": "C113",
   "status": "proved",
   "theorems": [
    "Neo.Props.C113_print",
    "Neo.Props.C113_back"
   ],
   "note": ""
  },
  {
   "property": "C114",
   "status": "proved",
   "theorems": [
    "Neo.Props.C114_ends"
   ],
   "note": ""
  },
  {
   "property": "C115",
   "status": "partial",
   "theorems": [
    "Neo.Props.C115_ends_partial",
    "Neo.Props.C115_traceback_violated"
   ],
   "note": "Proved for non-empty Base58 texts; the empty text ends in an IndexError traceback and every text with a non-Base58 character in a ValueError traceback (_violated)."
  },
  {
   "property": "C116",
   "status": "proved",
   "theorems": [
    "Neo.Props.C116_left",
    "Neo.Props.C116_right",
    "Neo.Props.C116_pow",
    "Neo.Props.C116_bad_text",
    "Neo.Props.C116_other_field"
   ],
   "note": ""
  },
  {
   "property": "C117",
   "status": "partial",
   "theorems": [
    "Neo.Props.C117_left_partial",
    "Neo.Props.C117_int_over_value_violated",
    "Neo.Props.C117_inverse_partial"
   ],
   "note": "Proved with the value on the left, for every positive divisor coprime to the modulus, and for inverse of positive representatives. An int or text over a value always raises TypeError, since the code defines __rdiv__ but no __rtruediv__ (_violated). Modulus 0 and negative divisors: see C60/C61."
  },
  {
   "property": "C118",
   "status": "partial",
   "theorems": [
    "Neo.Props.C118_iszero_partial",
    "Neo.Props.C118_iff_partial",
    "Neo.Props.C118_unreduced_violated"
   ],
   "note": "Holds exactly for 0 and for values that are no multiple of the modulus (C118_iff_partial); -zero and every value built from a non-zero multiple of the modulus equals 0 but iszero() is false (_violated)."
  },
  {
   "property": "C119",
   "status": "partial",
   "theorems": [
    "Neo.Props.C119_digits_partial",
    "Neo.Props.C119_decimal_violated"
   ],
   "note": "The text is 0x followed by the decimal digits: right for 0..9 only, wrong for every value from 10 on (_violated)."
  },
  {
   "property": "C120",
   "status": "proved",
   "theorems": [
    "Neo.Props.C120_eq"
   ],
   "note": ""
  },
  {
   "property": "C121",
   "status": "partial",
   "theorems": [
    "Neo.Props.C121_equivalence_partial",
    "Neo.Props.C121_symmetry_violated"
   ],
   "note": "Proved for values whose fields share a modulus (third value arbitrary); false across moduli (_violated)."
  },
  {
   "property": "C122",
   "status": "partial",
   "theorems": [
    "Neo.Props.C122_classes_partial",
    "Neo.Props.C122_doubled_partial",
    "Neo.Props.C122_few_multiples_violated",
    "Neo.Props.C122_pair_violated"
   ],
   "note": "False on every curve: 3 and 5 give the same point, and all 2^256 keys together give at most 28381 points, since the scalar is halved as a float (C122_few_multiples_violated). C122_classes_partial: which scalars that are floats (all below 2^53 among them) give the same point of secp256r1, exactly; C122_doubled_partial: doubling changes the point."
  },
  {
   "property": "C123",
   "status": "partial",
   "theorems": [
    "Neo.Props.C123_negative_scalar_violated",
    "Neo.Props.C123_zero_partial"
   ],
   "note": "False for every scalar but 0: P * -n is computed exactly as P * n, which on secp256r1 is never -(P * n) for 0 < |n| <= 2^256 (_violated)."
  },
  {
   "property": "C124",
   "status": "proved",
   "theorems": [
    "Neo.Props.C124_finite"
   ],
   "note": ""
  },
  {
   "property": "C125",
   "status": "proved",
   "theorems": [
    "Neo.Props.C125_injective",
    "Neo.Props.C125_surjective"
   ],
   "note": "Relative to the contract DerivesPublicKeys of the bitcoin package, which the package as modelled meets (pyBtc_derives)."
  },
  {
   "property": "C126",
   "status": "partial",
   "theorems": [
    "Neo.Props.C126_field_value_violated",
    "Neo.Props.C126_int_violated",
    "Neo.Props.C126_zero_partial"
   ],
   "note": "False: with a field value as divisor (the documented use) it always raises TypeError; with ints 1/a is a float, and P / 1 is already wrong (_violated). Only division by 0 is as expected."
  },
  {
   "property": "C127",
   "status": "partial",
   "theorems": [
    "Neo.Props.C127_findpk2_violated",
    "Neo.Props.C127_secp256r1_violated",
    "Neo.Props.C127_findpk_partial"
   ],
   "note": "findpk2 always raises; findpk always raises on the library's secp256r1 (_violated). Proved: with the order as an integer, a correct scalar multiplication, p < 2^52 (C79) and a message not divisible by n, findpk recovers the key."
  },
  {
   "property": "C128",
   "status": "proved",
   "theorems": [
    "Neo.Props.C128_text"
   ],
   "note": ""
  },
  {
   "property": "C129",
   "status": "proved",
   "theorems": [
    "Neo.Props.C129_bytes_decode",
    "Neo.Props.C129_truncated"
   ],
   "note": ""
  },
  {
   "property": "C130",
   "status": "proved",
   "theorems": [
    "Neo.Props.C130_varint_decodes"
   ],
   "note": ""
  },
  {
   "property": "C131",
   "status": "proved",
   "theorems": [
    "Neo.Props.C131_writeVarInt_outcome"
   ],
   "note": ""
  },
  {
   "property": "C132",
   "status": "partial",
   "theorems": [
    "Neo.Props.C132_fixed_width_partial",
    "Neo.Props.C132_varBytes_violated",
    "Neo.Props.C132_empty_violated",
    "Neo.Props.C132_iff_partial"
   ],
   "note": "Decided for every record type (C132_iff_partial): the encoding of a valid record refuses truncation at all points if and only if its last field is of fixed width; C132_fixed_width_partial is the special case of fixed-width fields only. False for byte strings, which come back shortened, and for variable-length data, fixed strings and hash lists that are missing altogether, which read as 0 or empty (_violated). Strings and lengths: C133."
  },
  {
   "property": "C133",
   "status": "proved",
   "theorems": [
    "Neo.Props.C133_varInt",
    "Neo.Props.C133_varString"
   ],
   "note": ""
  },
  {
   "property": "C134",
   "status": "partial",
   "theorems": [
    "Neo.Props.C134_varint_iff_partial",
    "Neo.Props.C134_varint_violated",
    "Neo.Props.C134_bool_violated"
   ],
   "note": "Fixed-width integers: C129. False for ReadVarInt (fd 05 00 is accepted for 5; it holds exactly for the shortest form) and ReadBool (any non-zero byte) (_violated)."
  },
  {
   "property": "C135",
   "status": "proved",
   "theorems": [
    "Neo.Props.C135_prefix_free",
    "Neo.Props.C135_same_inj"
   ],
   "note": ""
  },
  {
   "property": "C136",
   "status": "proved",
   "theorems": [
    "Neo.Props.C136_records"
   ],
   "note": ""
  },
  {
   "property": "C137",
   "status": "partial",
   "theorems": [
    "Neo.Props.C137_mirrored_signature_violated",
    "Neo.Props.C137_at_most_two_partial"
   ],
   "note": "The ideal statement is false: with every accepted signature (r, s) the mirrored (r, n - s) is accepted too, and verify_signature does not ask for the small half. Proved: the mirrored signature is always accepted (violated); and for a fixed r >= p - n (all but a 2^-128 fraction of the values of r) no third s is accepted (partial). For r < p - n two x coordinates have the same r, so up to four values of s are possible."
  },
  {
   "property": "C138",
   "status": "proved",
   "theorems": [
    "Neo.Props.C138_verify_forms",
    "Neo.Props.C138_verify_text",
    "Neo.Props.C138_sign_forms"
   ],
   "note": ""
  },
  {
   "property": "C139",
   "status": "proved",
   "theorems": [
    "Neo.Props.C139_nonce",
    "Neo.Props.C139_sign_uses_nonce"
   ],
   "note": ""
  },
  {
   "property": "C140",
   "status": "proved",
   "theorems": [
    "Neo.Props.C140_addresses"
   ],
   "note": "For any functions in the place of SHA-256 and RIPEMD-160, and relative to the contract DerivesPublicKeys of the bitcoin package (which the modelled package meets, pyBtc_derives)."
  },
  {
   "property": "C141",
   "status": "partial",
   "theorems": [
    "Neo.Props.C141_usable_partial",
    "Neo.Props.C141_unusable_violated"
   ],
   "note": "False for two kinds of WIFs with correct checksum: of the key 0 (KeyPair succeeds with the point at infinity as public key, GetAddress raises binascii.Error) and of keys from the group order on (KeyPair raises). Proved for all others, as an equivalence: the wallet is usable exactly for keys 1..n-1."
  },
  {
   "property": "C142",
   "status": "partial",
   "theorems": [
    "Neo.Props.C142_passphrases_partial",
    "Neo.Props.C142_length_violated"
   ],
   "note": "False for ExportNEP2 where one form has one character and the other two or more: the length test counts characters before normalisation. Proved for passphrases that both have, or both lack, two characters, and for PrivateKeyFromNEP2 without restriction. NFC is an arbitrary function here; the violation assumes only that it identifies the two ways to write e with acute accent."
  },
  {
   "property": "C143",
   "status": "proved",
   "theorems": [
    "Neo.Props.C143_other_passphrase"
   ],
   "note": ""
  },
  {
   "property": "C144",
   "status": "partial",
   "theorems": [
    "Neo.Props.C144_belongs_partial",
    "Neo.Props.C144_embedded_violated"
   ],
   "note": "Proved for 32-byte keys. False for 96- and 104-byte keys: any private key goes with any pair of 32-byte numbers as public key, checked neither against the private key nor against the curve."
  },
  {
   "property": "C145",
   "status": "proved",
   "theorems": [
    "Neo.Props.C145_any_state"
   ],
   "note": ""
  },
  {
   "property": "C146",
   "status": "partial",
   "theorems": [
    "Neo.Props.C146_reimport_partial",
    "Neo.Props.C146_embedded_violated"
   ],
   "note": "Proved for 32-byte keys. False for 96- and 104-byte keys whose embedded public key is not that of the private key."
  },
  {
   "property": "C147",
   "status": "proved",
   "theorems": [
    "Neo.Props.C147_bounds",
    "Neo.Props.C147_whole",
    "Neo.Props.C147_monotone"
   ],
   "note": ""
  },
  {
   "property": "C148",
   "status": "proved",
   "theorems": [
    "Neo.Props.C148_error",
    "Neo.Props.C148_monotone"
   ],
   "note": ""
  },
  {
   "property": "C149",
   "status": "partial",
   "theorems": [
    "Neo.Props.C149_values_partial",
    "Neo.Props.C149_meaning_partial",
    "Neo.Props.C149_left_partial",
    "Neo.Props.C149_unary_partial",
    "Neo.Props.C149_unary_violated",
    "Neo.Props.C149_types_violated",
    "Neo.Props.C149_division_violated"
   ],
   "note": "Values are right for every operator but int / BigInteger (C149_values_partial, C149_unary_partial); with an int on the left, and for **, &, |, ^, unary + and ~, and divmod, the result is a plain int; int / BigInteger is a float."
  },
  {
   "property": "C150",
   "status": "partial",
   "theorems": [
    "Neo.Props.C150_ints_partial",
    "Neo.Props.C150_others_violated"
   ],
   "note": "Equals of anything that is not an int returns NotImplemented, which is truthy."
  },
  {
   "property": "C151",
   "status": "partial",
   "theorems": [
    "Neo.Props.C151_answers_partial",
    "Neo.Props.C151_raises_iff_partial",
    "Neo.Props.C151_none_violated"
   ],
   "note": "Fixed8 and points raise AttributeError when compared with an object of another class, on either side (exactly when: C151_raises_iff_partial)."
  },
  {
   "property": "C152",
   "status": "proved",
   "theorems": [
    "Neo.Props.C152_outcome",
    "Neo.Props.C152_error",
    "Neo.Props.C152_monotone",
    "Neo.Props.C152_exact"
   ],
   "note": ""
  },
  {
   "property": "C153",
   "status": "proved",
   "theorems": [
    "Neo.Props.C153_links",
    "Neo.Props.C153_sound",
    "Neo.Props.C153_position"
   ],
   "note": ""
  },
  {
   "property": "C154",
   "status": "proved",
   "theorems": [
    "Neo.Props.C154_concat"
   ],
   "note": ""
  },
  {
   "property": "C155",
   "status": "partial",
   "theorems": [
    "Neo.Props.C155_lame_partial",
    "Neo.Props.C155_curve_partial",
    "Neo.Props.C155_fibonacci_violated"
   ],
   "note": "371 frames suffice for every number below 2^256 (all curve uses; the limit is 1000); for every limit consecutive Fibonacci numbers exceed it, exactly from F(n+1) on with n frames."
  },
  {
   "property": "C156",
   "status": "partial",
   "theorems": [
    "Neo.Props.C156_iff_partial",
    "Neo.Props.C156_large_iff_partial",
    "Neo.Props.C156_satoshi_partial",
    "Neo.Props.C156_violated",
    "Neo.Props.C156_exact_partial",
    "Neo.Props.C156_close_partial",
    "Neo.Props.C156_negative_refused_partial"
   ],
   "note": "Violated: 29 satoshis (2.9e-07) are read back as 28 (C156_violated). Proved: the exact condition for all 64-bit amounts (C156_iff_partial below 2^52 satoshis, C156_large_iff_partial from there on, those of C30); below 2^52 satoshis the result is the amount or one satoshi less in magnitude; amounts a float holds exactly come back exactly; every 64-bit amount within 1 satoshi plus 2^-51 relative; negative texts are refused when a positive amount is required. float(text) and int(text) enter by contract (Faithful: float gives the nearest double of a decimal text)."
  },
  {
   "property": "C157",
   "status": "proved",
   "theorems": [
    "Neo.Props.C157_decimal_roundtrip"
   ],
   "note": "Decimal(text) enters by contract (DecimalOf: the number the text denotes, coefficient made of its digits); decimalOf_exists shows the contract can be met."
  },
  {
   "property": "C158",
   "status": "proved",
   "theorems": [
    "Neo.Props.C158_own_setup",
    "Neo.Props.C158_setup_first",
    "Neo.Props.C158_finishes"
   ],
   "note": "Interleaving model with one step per access to bitcoin.main.P/N/A/B/Gx/Gy/G and Crypto._Instance; the functions of the bitcoin package are any readers of these variables that compute B's functions when undisturbed. Rely-guarantee proof; liveness for fair schedules (C158_finishes)."
  },
  {
   "property": "C159",
   "status": "partial",
   "theorems": [
    "Neo.Props.C159_mixed_curve_violated",
    "Neo.Props.C159_one_curve_partial"
   ],
   "note": "Violated: while one thread runs SetupSignatureCurve (or constructs the first KeyPair), another thread that has not set the curve signs with secp256r1's prime and secp256k1's other parameters (C159_mixed_curve_violated). Proved: threads that have set the curve, and processes in which nobody does."
  },
  {
   "property": "C160",
   "status": "proved",
   "theorems": [
    "Neo.Props.C160_writing_in_context",
    "Neo.Props.C160_patch"
   ],
   "note": "Programs are trees of writer calls branching on results (WriteClient), including WriteSerializableArray through its element calls."
  },
  {
   "property": "C161",
   "status": "proved",
   "theorems": [
    "Neo.Props.C161_before",
    "Neo.Props.C161_after"
   ],
   "note": "Programs are trees of reader calls branching on results and errors (ReadClient)."
  },
  {
   "property": "C162",
   "status": "partial",
   "theorems": [
    "Neo.Props.C162_varInt_partial",
    "Neo.Props.C162_one_piece_partial",
    "Neo.Props.C162_lists_violated",
    "Neo.Props.C162_text_violated"
   ],
   "note": "Violated: an item that is not hexadecimal stops WriteHashes/Write2000256List with the count and all items before it written (C162_lists_violated, exact); WriteVarBytes of a text writes its length and raises (C162_text_violated); WriteVarInt of 2^64 or more leaves 0xff (C162_varInt_partial characterises all failing calls). Proved for all other methods."
  },
  {
   "property": "C163",
   "status": "partial",
   "theorems": [
    "Neo.Props.C163_lost_violated",
    "Neo.Props.C163_raw_partial",
    "Neo.Props.C163_varInt_violated"
   ],
   "note": "Violated by every method that takes a fixed number of bytes: when it raises, all that was left of the stream has been passed over (C163_lost_violated), likewise ReadVarInt (C163_varInt_violated, exact). Proved for ReadByte, ReadBytes, ReadFixedString."
  },
  {
   "property": "C164",
   "status": "partial",
   "theorems": [
    "Neo.Props.C164_writes_encoded_partial",
    "Neo.Props.C164_utf16_violated"
   ],
   "note": "Violated for UTF-16: the hexadecimal text is decoded in the encoding too, so every non-empty text raises after its length has been written (C164_utf16_violated). Proved for all encodings that read ASCII data as ASCII text."
  },
  {
   "property": "C165",
   "status": "partial",
   "theorems": [
    "Neo.Props.C165_short_violated",
    "Neo.Props.C165_complete_partial"
   ],
   "note": "Violated: missing data turns into shorter and empty hashes, without an error (C165_short_violated gives the exact result on every stream). Proved when the data is complete."
  },
  {
   "property": "C166",
   "status": "proved",
   "theorems": [
    "Neo.Props.C166_at_most_four",
    "Neo.Props.C166_at_most_two",
    "Neo.Props.C166_second_key",
    "Neo.Props.C166_two_keys"
   ],
   "note": "AcceptedUnder ranges over public keys given as points; about every package whose verification is ECDSA's (VerifiesEcdsa, which the modelled bitcoin package meets: C80). C166_two_keys is a concrete signature accepted under G and under -G."
  },
  {
   "property": "C167",
   "status": "proved",
   "theorems": [
    "Neo.Props.C167_lookup",
    "Neo.Props.C167_keys"
   ],
   "note": "Heap model with shared bytearrays and the hash stored in the dictionary entry, as CPython does; the condition excludes changing an aliased bytearray and Deserialize on a key, which do break dictionaries (C41)."
  },
  {
   "property": "C168",
   "status": "proved",
   "theorems": [
    "Neo.Props.C168_values",
    "Neo.Props.C168_others"
   ],
   "note": "Heap of objects and variables (Model/Fixed8Vars), refinement to variables holding numbers. Assigning to the attribute `value` from outside is not part of the programs. What /, Ceil and Floor compute is C29, C28, C147, C148."
  },
  {
   "property": "C169",
   "status": "partial",
   "theorems": [
    "Neo.Props.C169_whole_partial",
    "Neo.Props.C169_negative_violated"
   ],
   "note": "Negative exponents without modulus give an object whose value is a float (C169_negative_violated); nonnegative exponents and moduli are as stated (C169_whole_partial)."
  },
  {
   "property": "C170",
   "status": "partial",
   "theorems": [
    "Neo.Props.C170_contents_partial",
    "Neo.Props.C170_array_partial",
    "Neo.Props.C170_items_violated"
   ],
   "note": "Bytes and characters are bounded for every method (C170_contents_partial), items of ReadSerializableArray if every item passes over a byte (C170_array_partial). The number of items is not: nine bytes make ReadHashes return any number below 2^63 of empty hashes (C170_items_violated)."
  },
  {
   "property": "C171",
   "status": "proved",
   "theorems": [
    "Neo.Props.C171_reexport",
    "Neo.Props.C171_iff",
    "Neo.Props.C171_unique"
   ],
   "note": ""
  },
  {
   "property": "C172",
   "status": "proved",
   "theorems": [
    "Neo.Props.C172_keys_differ"
   ],
   "note": ""
  },
  {
   "property": "C173",
   "status": "proved",
   "theorems": [
    "Neo.Props.C173_trims"
   ],
   "note": ""
  },
  {
   "property": "C174",
   "status": "proved",
   "theorems": [
    "Neo.Props.C174_identities"
   ],
   "note": "Proved. -v is not reduced when v is a multiple of the modulus (see C118)."
  },
  {
   "property": "C175",
   "status": "partial",
   "theorems": [
    "Neo.Props.C175_sorted_partial",
    "Neo.Props.C175_input_order_violated",
    "Neo.Props.C175_iff_partial"
   ],
   "note": "Fails exactly for different hashes that agree in all but the lowest byte (CompareTo skips byte 0): they keep the order of the input. Proved otherwise, for every stable sort. C175_iff_partial: independent of the order of the input if and only if the list has no two such hashes."
  },
  {
   "property": "C176",
   "status": "partial",
   "theorems": [
    "Neo.Props.C176_sorted_partial",
    "Neo.Props.C176_input_order_violated",
    "Neo.Props.C176_iff_partial"
   ],
   "note": "Fails for a key and its negative (equal x), which keep the order of the input. Proved for lists without two different points of equal x; the outcome is always ascending in x. C176_iff_partial: independent of the order of the input if and only if no two different points of the list have equal x."
  },
  {
   "property": "C177",
   "status": "proved",
   "theorems": [
    "Neo.Props.C177_frames"
   ],
   "note": ""
  },
  {
   "property": "C178",
   "status": "partial",
   "theorems": [
    "Neo.Props.C178_methods_partial",
    "Neo.Props.C178_sqrtCQ_violated"
   ],
   "note": "Value.sqrtCQ calls self.field.sqrtCQ, which FiniteField does not have: every call raises AttributeError (C178_sqrtCQ_violated), also where the module function returns a root. sqrt and inverse agree (C178_methods_partial)."
  },
  {
   "property": "C179",
   "status": "partial",
   "theorems": [
    "Neo.Props.C179_consistent_partial",
    "Neo.Props.C179_unhashable_violated"
   ],
   "note": "Fixed8 and ECPoint define __eq__ without __hash__, so no amount and no point can be put into a set or be a dictionary key: TypeError (C179_unhashable_violated; FiniteField.Value likewise: C221_violated). BigInteger and UInt are hashed consistently with == across classes (C179_consistent_partial)."
  },
  {
   "property": "C180",
   "status": "partial",
   "theorems": [
    "Neo.Props.C180_arithmetic_partial",
    "Neo.Props.C180_int_partial",
    "Neo.Props.C180_rounding_violated",
    "Neo.Props.C180_floor_partial"
   ],
   "note": "BigInteger.__truediv__ is floor division, so the methods of Fixed8 that divide behave differently on BigInteger values: for every amount that is not whole, Ceil returns less than the amount and the text drops the fraction (Fixed8(BigInteger(150000000)) prints as 1); ToInt of a negative one is off by one (C180_rounding_violated). +, -, *, //, %, negation and Floor agree (C180_arithmetic_partial, C180_floor_partial)."
  },
  {
   "property": "C181",
   "status": "partial",
   "theorems": [
    "Neo.Props.C181_float_partial",
    "Neo.Props.C181_int_iff_partial",
    "Neo.Props.C181_decimal_partial",
    "Neo.Props.C181_special_violated",
    "Neo.Props.C181_violated",
    "Neo.Props.C181_decimal_iff_partial",
    "Neo.Props.C181_decimal_large_iff_partial"
   ],
   "note": "Proved for all floats. TryParse converts ints and Decimals to float first: Decimal(\"0.00000029\") gives 28 satoshis where FromDecimal gives 29, and the int 2^53 + 1 loses a unit (C181_violated). Exact condition for all ints; and for Decimals below 2^53 units (C181_decimal_iff_partial, C181_decimal_large_iff_partial); below 2^52 satoshis never more than one satoshi is lost. A signalling NaN gives None from TryParse where FromDecimal raises."
  },
  {
   "property": "C182",
   "status": "proved",
   "theorems": [
    "Neo.Props.C182_class",
    "Neo.Props.C182_unknown"
   ],
   "note": ""
  },
  {
   "property": "C183",
   "status": "partial",
   "theorems": [
    "Neo.Props.C183_rounds_partial",
    "Neo.Props.C183_many_rounds_violated"
   ],
   "note": "The scalar is halved as a float until it underflows, so every product takes 1074 or 1075 rounds more than n has bits: 1075 for P * 1 (C183_many_rounds_violated). That is also the upper bound, so it always ends (C183_rounds_partial)."
  },
  {
   "property": "C184",
   "status": "proved",
   "theorems": [
    "Neo.Props.C184_hash_calls"
   ],
   "note": ""
  },
  {
   "property": "C185",
   "status": "proved",
   "theorems": [
    "Neo.Props.C185_refused",
    "Neo.Props.C185_others"
   ],
   "note": ""
  },
  {
   "property": "C186",
   "status": "partial",
   "theorems": [
    "Neo.Props.C186_exact_iff_partial",
    "Neo.Props.C186_violated",
    "Neo.Props.C186_close_partial"
   ],
   "note": "decimal rounds the product with 10^8 to 28 significant digits, so it holds exactly for amounts of at most 28 significant digits below 10^1000000 satoshis (C186_exact_iff_partial); error bound for all Decimals; _violated for 10^28 + 1 satoshis."
  },
  {
   "property": "C187",
   "status": "proved",
   "theorems": [
    "Neo.Props.C187_options",
    "Neo.Props.C187_none"
   ],
   "note": "argparse itself is not modelled; arguments are those parse_args has found. A command line consisting of a bare -- is not modelled."
  },
  {
   "property": "C188",
   "status": "partial",
   "theorems": [
    "Neo.Props.C188_at_most_four_partial",
    "Neo.Props.C188_gives_key_away_partial",
    "Neo.Props.C188_any_two_messages_violated",
    "Neo.Props.C188_pay_violated"
   ],
   "note": "False of ECDSA without the key in the hash: for any two messages a key and a signature valid for both can be made (duplicate-signature key selection; concrete with the real SHA-256 in C188_pay_violated). What holds: at most four digests per signature and key, and unless r < p - n a second digest gives the private key away, so it takes the key's owner to do it."
  },
  {
   "property": "C189",
   "status": "proved",
   "theorems": [
    "Neo.Props.C189_key_forms",
    "Neo.Props.C189_two_forms"
   ],
   "note": "For every ecdsa package. The 33-byte form needs signatureCurve in force (C54/C93); point and 64 bytes agree in every state, on the curve or not."
  },
  {
   "property": "C190",
   "status": "partial",
   "theorems": [
    "Neo.Props.C190_kept_partial",
    "Neo.Props.C190_one_hash_partial",
    "Neo.Props.C190_stale_violated"
   ],
   "note": "The leaves share the caller's UInt256 objects, inner hashes are computed once: _violated for every tree of two or more hashes (one Deserialize makes the root stale, up to a hash collision among the strings hashed). Holds while nothing happens to the objects concerned, and always for one hash, which is its own root object."
  },
  {
   "property": "C191",
   "status": "partial",
   "theorems": [
    "Neo.Props.C191_reads_reversed_violated",
    "Neo.Props.C191_varint_iff_partial",
    "Neo.Props.C191_varbytes_iff_partial"
   ],
   "note": "The readers have no byte order option and always read '<'. Characterised exactly: a value or length is read back iff the order is '<', it is below 0xfd, or its digits read the same backwards; otherwise ReadVarInt returns the number with the digits reversed."
  },
  {
   "property": "C192",
   "status": "partial",
   "theorems": [
    "Neo.Props.C192_opposite_order_violated",
    "Neo.Props.C192_round_trip_iff_partial"
   ],
   "note": "The option names the opposite order: with 'little' (the default) the most significant byte comes first, as SEC 1 has it; with 'big' the least significant one. Round trip characterised exactly: the default always, 'big' only if the bytes of the coordinates read the same backwards."
  },
  {
   "property": "C193",
   "status": "proved",
   "theorems": [
    "Neo.Props.C193_float_layout",
    "Neo.Props.C193_double_layout",
    "Neo.Props.C193_every_word",
    "Neo.Props.C193_double_bits"
   ],
   "note": ""
  },
  {
   "property": "C194",
   "status": "partial",
   "theorems": [
    "Neo.Props.C194_writeByte_effect",
    "Neo.Props.C194_single_byte_iff_partial",
    "Neo.Props.C194_raises_iff_partial",
    "Neo.Props.C194_single_byte_read",
    "Neo.Props.C194_violated"
   ],
   "note": "Violated: a bytes object or text of any length is written whole, and a BigInteger, bool, bytearray, None or other object is dropped without an error (C194_violated). The effect on every argument is characterised (C194_writeByte_effect), and the arguments that give exactly one byte, and those that raise, exactly (C194_single_byte_iff_partial, C194_raises_iff_partial)."
  },
  {
   "property": "C195",
   "status": "proved",
   "theorems": [
    "Neo.Props.C195_export",
    "Neo.Props.C195_interoperable",
    "Neo.Props.C195_standard_unique"
   ],
   "note": ""
  },
  {
   "property": "C196",
   "status": "proved",
   "theorems": [
    "Neo.Props.C196_varint_unique",
    "Neo.Props.C196_varint",
    "Neo.Props.C196_varbytes",
    "Neo.Props.C196_varstring",
    "Neo.Props.C196_array",
    "Neo.Props.C196_fixed8",
    "Neo.Props.C196_public_key"
   ],
   "note": ""
  },
  {
   "property": "C197",
   "status": "partial",
   "theorems": [
    "Neo.Props.C197_fixed8",
    "Neo.Props.C197_uint_iff_partial",
    "Neo.Props.C197_uint_violated",
    "Neo.Props.C197_point_iff_partial",
    "Neo.Props.C197_point_violated"
   ],
   "note": "Holds for amounts (C197_fixed8). Violated for a UInt exactly when its contents are non-empty ASCII hexadecimal text, where WriteBytes unhexes and half as many bytes are written, and for a finite public key exactly with compress=False, where 65 bytes are written and Size() says 33. MerkleTreeNode.Size() is sys.getsizeof of the Python object and has no counterpart in a model."
  },
  {
   "property": "C198",
   "status": "proved",
   "theorems": [
    "Neo.Props.C198_texts",
    "Neo.Props.C198_determine"
   ],
   "note": ""
  },
  {
   "property": "C199",
   "status": "proved",
   "theorems": [
    "Neo.Props.C199_named"
   ],
   "note": ""
  },
  {
   "property": "C200",
   "status": "proved",
   "theorems": [
    "Neo.Props.C200_parameters"
   ],
   "note": "The object secp256r1() carries the field in place of the order (C71); the order proved here is that of its base point."
  },
  {
   "property": "C201",
   "status": "partial",
   "theorems": [
    "Neo.Props.C201_calcpub_iff_partial",
    "Neo.Props.C201_sign_verify_partial",
    "Neo.Props.C201_sign_verify_violated",
    "Neo.Props.C201_rejected_violated"
   ],
   "note": "Violated: mul works through floats, and of all n with |n| below the order exactly 0 and two numbers above 2^255 get the right public key (C201_calcpub_iff_partial, exact). With the key 1, every signature of the message 0 whose s is not 0 is rejected (C201_sign_verify_violated), and there are such signatures (C201_rejected_violated). sign and verify are right relative to a correct scalar multiplication (C201_sign_verify_partial)."
  },
  {
   "property": "C202",
   "status": "proved",
   "theorems": [
    "Neo.Props.C202_reduced",
    "Neo.Props.C202_identical"
   ],
   "note": ""
  },
  {
   "property": "C203",
   "status": "proved",
   "theorems": [
    "Neo.Props.C203_texts",
    "Neo.Props.C203_numbers"
   ],
   "note": ""
  },
  {
   "property": "C204",
   "status": "partial",
   "theorems": [
    "Neo.Props.C204_raw",
    "Neo.Props.C204_unhex_partial",
    "Neo.Props.C204_raises_iff_partial",
    "Neo.Props.C204_single_byte_violated"
   ],
   "note": "Violated for every single byte: it is hashed as it is although it is no hexadecimal text (C204_single_byte_violated), so it has the script hash of its own two-digit text. For all other lengths exact (C204_unhex_partial, C204_raises_iff_partial)."
  },
  {
   "property": "C205",
   "status": "proved",
   "theorems": [
    "Neo.Props.C205_valid_iff"
   ],
   "note": ""
  },
  {
   "property": "C206",
   "status": "partial",
   "theorems": [
    "Neo.Props.C206_redeem_iff_partial",
    "Neo.Props.C206_raises",
    "Neo.Props.C206_length_violated"
   ],
   "note": "Violated for every key whose length is not 33 bytes, uncompressed ones among them: the opcode is always 0x21, so the script does not push the key (C206_length_violated, C206_redeem_iff_partial). Everything that is not hexadecimal raises (C206_raises)."
  },
  {
   "property": "C207",
   "status": "proved",
   "theorems": [
    "Neo.Props.C207_forms_agree",
    "Neo.Props.C207_accepted",
    "Neo.Props.C207_exported"
   ],
   "note": "Sign hands its argument to the bitcoin package, whose decode_privkey is modelled from its published source (all formats but float)."
  },
  {
   "property": "C208",
   "status": "partial",
   "theorems": [
    "Neo.Props.C208_no_key_violated",
    "Neo.Props.C208_typo_violated",
    "Neo.Props.C208_wif_typo_violated",
    "Neo.Props.C208_raises_iff_partial",
    "Neo.Props.C208_base58_partial"
   ],
   "note": "Violated: every number (0, multiples of the order, negative ones), every 32 or 64 bytes and every text of 64 characters is accepted (C208_no_key_violated); a character that is no digit counts as -1, so a mistyped key signs as another key (C208_typo_violated); in a WIF text a character outside the Base58 alphabet is taken the same way (C208_wif_typo_violated). What is refused is characterised for all arguments that are not texts (C208_raises_iff_partial) and for Base58 texts (C208_base58_partial)."
  },
  {
   "property": "C209",
   "status": "partial",
   "theorems": [
    "Neo.Props.C209_complete_items_partial",
    "Neo.Props.C209_filled_up_violated"
   ],
   "note": "Holds for items whose last field is of fixed width (C209_complete_items_partial). An array of byte strings that ends early is filled up with empty byte strings (C209_filled_up_violated)."
  },
  {
   "property": "C210",
   "status": "partial",
   "theorems": [
    "Neo.Props.C210_log_partial",
    "Neo.Props.C210_phantom_violated",
    "Neo.Props.C210_endless_violated"
   ],
   "note": "Holds for records whose last field is of fixed width (C210_log_partial). For every other record type some cut inside a record is read as a record (C210_phantom_violated), and reading byte strings until a read raises never ends, even without a crash (C210_endless_violated)."
  },
  {
   "property": "C211",
   "status": "partial",
   "theorems": [
    "Neo.Props.C211_one_write_partial",
    "Neo.Props.C211_varbytes_violated",
    "Neo.Props.C211_varint_violated"
   ],
   "note": "Holds for the calls that write all their bytes with one stream.write (C211_one_write_partial): fixed-width numbers, bools, floats, amounts, UInt160/256, raw bytes, fixed strings without padding, variable-length numbers below 0xfd. All other calls can be torn (C211_varbytes_violated, C211_varint_violated). Threads switch between calls of stream.write (io.BytesIO.write holds the interpreter lock)."
  },
  {
   "property": "C212",
   "status": "proved",
   "theorems": [
    "Neo.Props.C212_no_byte_lost",
    "Neo.Props.C212_every_thread_ends"
   ],
   "note": "The writer's methods are divided at their calls of stream.write (Model/WriterSteps); refines_client proves that without other threads this is the sequential model."
  },
  {
   "property": "C213",
   "status": "proved",
   "theorems": [
    "Neo.Props.C213_each_byte_once"
   ],
   "note": "The reader's methods are divided at their calls of stream.read (Model/ReaderSteps); readsAs_client proves that without other threads this is the sequential model."
  },
  {
   "property": "C214",
   "status": "partial",
   "theorems": [
    "Neo.Props.C214_one_read_partial",
    "Neo.Props.C214_varbytes_violated"
   ],
   "note": "Holds for the calls that read all their bytes with one stream.read (C214_one_read_partial): fixed-width numbers, bools, chars, floats, amounts, UInt160/256, raw bytes, fixed strings. Calls of several reads can be torn (C214_varbytes_violated: one thread gets a byte string shifted by one byte, with the other's length at its end)."
  },
  {
   "property": "C215",
   "status": "partial",
   "theorems": [
    "Neo.Props.C215_reported_partial",
    "Neo.Props.C215_program_reports_partial",
    "Neo.Props.C215_first_byte_violated",
    "Neo.Props.C215_array_item_violated"
   ],
   "note": "Violated: ReadByte's handler also catches what the stream raises, so ReadByte and ReadVarInt return 0, ReadHashes an empty list and ReadVarBytes the result of reading no bytes (C215_first_byte_violated); ReadSerializableArray returns a shorter list (C215_array_item_violated). Proved over every stream object: all calls that do not begin with ReadByte pass every exception on, all others every exception but that of their first byte (C215_reported_partial), and so do whole programs (C215_program_reports_partial)."
  },
  {
   "property": "C216",
   "status": "partial",
   "theorems": [
    "Neo.Props.C216_checked_partial",
    "Neo.Props.C216_varbytes_violated"
   ],
   "note": "Violated by the calls that do not check how many bytes they got: ReadBytes, ReadVarBytes, ReadFixedString, ReadHashes, Read2000256List (C216_varbytes_violated: from a stream that delivers one byte at a time ReadVarBytes returns the first byte). Proved for all other calls and all programs of them (C216_checked_partial)."
  },
  {
   "property": "C217",
   "status": "proved",
   "theorems": [
    "Neo.Props.C217_write_errors"
   ],
   "note": "The stream is an arbitrary object that answers each write with a number or an exception; exceptions are those of the model's Err type. Programs that catch the exception and go on are outside this property (C212 covers them for io.BytesIO)."
  },
  {
   "property": "C218",
   "status": "partial",
   "theorems": [
    "Neo.Props.C218_count_partial",
    "Neo.Props.C218_lost_violated"
   ],
   "note": "Violated: the number returned by stream.write is ignored inside WriteVarInt, WriteVarBytes, UIntBase.Serialize and others (C218_lost_violated: bytes are lost without an exception). Proved: WriteBytes and the fixed-width numbers return the number the stream answered (C218_count_partial)."
  },
  {
   "property": "C219",
   "status": "partial",
   "theorems": [
    "Neo.Props.C219_all_read_partial",
    "Neo.Props.C219_unread_violated",
    "Neo.Props.C219_written_violated"
   ],
   "note": "Both use the one position of io.BytesIO. Violated: what is written takes the place of unread bytes (C219_unread_violated), and the reader finds the end of the stream instead of what was written, which reads as 0 or empty (C219_written_violated). If everything has been read, the writer appends (C219_all_read_partial)."
  },
  {
   "property": "C220",
   "status": "proved",
   "theorems": [
    "Neo.Props.C220_tape",
    "Neo.Props.C220_reads"
   ],
   "note": ""
  },
  {
   "property": "C221",
   "status": "partial",
   "theorems": [
    "Neo.Props.C221_numbers_partial",
    "Neo.Props.C221_raises_iff_partial",
    "Neo.Props.C221_violated"
   ],
   "note": "Violated: beside None, byte strings, UInts, points, amounts and texts that are not hexadecimal v == y raises; an amount is 'equal' to the field value that holds its number of satoshis while the value compared with the amount raises; values cannot be hashed (C221_violated). Proved: what raises, exactly, on either side (C221_raises_iff_partial), and the right answer for everything that stands for a number (C221_numbers_partial). Values of two fields: C120, C121."
  },
  {
   "property": "C222",
   "status": "partial",
   "theorems": [
    "Neo.Props.C222_with_start_partial",
    "Neo.Props.C222_without_start_violated"
   ],
   "note": "Holds for sum(l, start) with a start of the class (C222_with_start_partial). Without a start sum of amounts raises TypeError (no __radd__) and sum of BigIntegers is a plain int (_violated)."
  },
  {
   "property": "C223",
   "status": "partial",
   "theorems": [
    "Neo.Props.C223_amounts_partial",
    "Neo.Props.C223_hashes_partial",
    "Neo.Props.C223_hashes_violated",
    "Neo.Props.C223_points_partial",
    "Neo.Props.C223_points_violated"
   ],
   "note": "Holds for amounts. Hashes: the lowest byte is ignored, so max and min return the first of hashes that agree in the others (_violated; exact result in C223_hashes_partial). Public keys: a key and its negative are not ordered (_violated; exact result in C223_points_partial)."
  },
  {
   "property": "C224",
   "status": "partial",
   "theorems": [
    "Neo.Props.C224_integers_partial",
    "Neo.Props.C224_always_true_violated"
   ],
   "note": "Holds for BigIntegers. Amounts, hashes, field values and points define neither __bool__ nor __len__ and are always true (_violated)."
  },
  {
   "property": "C225",
   "status": "proved",
   "theorems": [
    "Neo.Props.C225_reads",
    "Neo.Props.C225_short",
    "Neo.Props.C225_written"
   ],
   "note": ""
  },
  {
   "property": "C226",
   "status": "proved",
   "theorems": [
    "Neo.Props.C226_any_history",
    "Neo.Props.C226_kept_object"
   ],
   "note": "Proved over the histories of C91; the signature packages are arbitrary functions of the curve in force."
  },
  {
   "property": "C227",
   "status": "partial",
   "theorems": [
    "Neo.Props.C227_violated",
    "Neo.Props.C227_digest_partial"
   ],
   "note": "Violated for every message: the method calls Hash160Bytes and returns the 20 raw bytes (C227_violated); their hexadecimal text is what Crypto.Hash160 returns (C227_digest_partial)."
  }
 ]
}