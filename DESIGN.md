# Formal model of neo-python-core (neocore) in Lean 4 — design

Contents: 1 model, 2 plan and method per property, 3 trusted base, 4 what is and is not modelled, 5 findings (defects of the
code that are proved), 6 conformance tests, 7 seeded bugs.

## 1. What is modelled and how

Every Python function is modelled by a small total computable Lean function that mirrors its branches; Python exceptions are
values of `Py.Err` (`Except Py.Err α`), mutation is a returned state, a loop is structural recursion, a fold or a recursion whose
termination is proved. Stream methods are functions `Stream → Except Err α × Stream`, so that what an exception leaves behind on
the stream is visible. Dynamically typed arguments are values of `Py.Val`. Every definition cites file and lines in /repo.

| Lean module | code modelled |
|---|---|
| `Py/Core` | the parts of CPython neocore leans on: `int.from_bytes/to_bytes`, `binascii.hexlify/unhexlify`, `bytearray.fromhex`, UTF-8, `struct` integer formats, `io.BytesIO`, `sys.maxsize`, dynamic argument types |
| `Py/Float`, `Py/FloatText` | binary64 round-to-nearest-even as used by `int/int`, `float*int`, `int(float)`, `math.floor/ceil`; `float(str)`, `repr(float)` (shortest decimal, `Dtoa`) |
| `Model/Writer`, `Model/Reader` | neocore/IO/BinaryWriter.py, BinaryReader.py |
| `Model/Floats` | the `f`/`d` formats: WriteFloat, WriteDouble, ReadFloat, ReadDouble on numbers |
| `Model/UInt` | neocore/UIntBase.py, UInt160.py, UInt256.py, with aliased mutable byte arrays as a heap |
| `Model/BigInteger`, `Model/Fixed8`, `Model/Fixed8Text` | neocore/BigInteger.py, neocore/Fixed8.py |
| `Model/ClassLookup` | the class name given to BinaryReader.ReadSerializableArray |
| `Model/MulCost` | EllipticCurve.mul with its rounds counted (proved to return the same points) |
| `Model/MerkleCost` | MerkleTree.ComputeRoot with the calls of Hash256 counted (proved to return the same roots) |
| `Model/MerkleShared` | which UInt256 objects the nodes of a MerkleTree refer to (proved to have the roots of `Model/Merkle` as contents) |
| `Model/Surrogates` | the text methods of BinaryWriter for all code points, lone surrogates included |
| `Model/Fixed8Big` | Fixed8 amounts whose value is a BigInteger |
| `Model/Operators` | how CPython dispatches `x op y` and `x == y` when one side is a BigInteger, Fixed8, UInt or point |
| `Model/Hashing` | `hash(x)` of these objects: which class defines `__eq__` and `__hash__` |
| `Model/ValueEq` | `==`, `!=` and `hash` with field values among the objects |
| `Model/Builtins` | `sum`, `max`, `min` and conditions on these objects |
| `Model/Merkle` | neocore/Cryptography/MerkleTree.py: object heap with parent/child references |
| `Model/ECCurve` | neocore/Cryptography/ECCurve.py |
| `Model/Fixed8Vars`, `Model/UIntDict` | programs over variables holding Fixed8 objects; CPython dictionaries with UInt keys |
| `Model/Threads` | calls of several threads, interleaved at every access to shared variables |
| `Model/WriterSteps` | BinaryWriter divided at its calls of `stream.write`, for threads that share a writer and for any stream object |
| `Model/ReaderSteps` | BinaryReader divided at its calls of `stream.read`, likewise |
| `Model/RandomKey` | `random_key` of Helper.py with the text it hashes |
| `Model/Recursion` | recursion depth of ECCurve.py `GCD` and of MerkleTree.py `__Build`, `__DepthFirstSearch`, `_TrimNode` against CPython's recursion limit |
| `Model/FieldOps` | neocore/Cryptography/ECCurve.py 94-255: `FiniteField.Value` operators with mixed operands (ints, hex text, values of other fields), equality, text |
| `Model/CurveOps` | neocore/Cryptography/ECCurve.py: `P * float`, `P / a`, `str(P)`, `ECDSA.findpk2` |
| `Model/Cli` | neocore/bin/cli.py `main` after argument parsing: printed lines and exit status, `print` of bytes and json, ADDRESS_VERSION |
| `Model/Base58` | the `base58` package functions used (external, written from its published source) |
| `Model/Helper` | neocore/Cryptography/Helper.py, neocore/Utils.py, the converters of neocore/bin/cli.py |
| `Model/Crypto`, `Model/KeyPair` | neocore/Cryptography/Crypto.py, neocore/KeyPair.py, with the process-wide curve parameters of the `bitcoin` package as state (`World`) |
| `Model/Bitcoin`, `Model/EcdsaPkg` | the functions of the `bitcoin` (pybitcointools) and `ecdsa` packages that neocore calls (external, from their published sources) |
| `Model/Hashes`, `Model/Primitives` | SHA-256, RIPEMD-160, HMAC, PBKDF2, scrypt, AES-256 (FIPS 180-4, RFC 7914, FIPS 197 ...): a concrete instance `realPrims` of the contract `Prims` |

Layout: `Verif/Py` + `Verif/Model` = model; `Verif/Spec` = small independent specifications that mention nothing of the model's
functions; `Verif/Proofs` = helper lemmas; `Verif/Props` = the property theorems (named `Cnn_...`), each with an `example` showing
that its hypotheses are met by a concrete non-trivial case; `Verif/Tests` = replay of the repository's own unit-test literals.

Conventions. A theorem that covers only part of its property has the suffix `_partial`; where the code violates the claim, the
claim stays in properties.jsonl as it should be, and a theorem `..._violated` proves its negation for the code as it is (a witness,
or a characterisation of all failing inputs). Where a property has a part that holds and a part that does not, the part that holds
is usually a property of its own (C81-C105 and later).

## 2. Plan per property

*inv* = invariant by induction over operation lists; *alg* = algebraic law; *ref* = refinement of a separate spec;
*viol* = false of the code: negation proved, plus the strongest partial statement.

### Binary IO
- C01 fixed ints: `struct` format table, `BytesIO`; alg. C02 layout: base-256 digits of the two's complement; ref.
- C03 VarInt round trip, alg; C81 the default `max = sys.maxsize`, *viol* from 2^63. C04 lengths, prefix-freeness, shortest form.
- C05 VarInt errors; *viol* for v >= 2^64 (a stray 0xff stays on the stream). C06 int subclasses; *viol* (`type(value) is int`).
- C07 ReadVarInt bound, all streams. C08 VarBytes, C09 VarString (UTF-8 injective): alg.
- C10 FixedString, C11 WriteBytes, C12 UInt, C17 hash lists; *viol* exactly on even-length hex text (WriteBytes unhexes); C82, C83 what holds.
- C13 reader safety, C14 writer append-only: inv over arbitrary histories. C15 mixed records: induction over nested field lists.
- C16 serializable arrays: generic in the element codec; induction; first-failure theorem for arbitrary streams.
- C18 2000-lists; *viol* for every list. C19 Fixed8 IO, C20 SafeReadBytes, C21 bool/char/double bit patterns, C22 swap32, C23 convert_to_uint (*viol* for some negatives).
- C106-C110 floats: `struct` rounding is shown to be IEEE round-to-nearest-even against `Spec/Float` (nearest grid point, tie to even
  significand); decoding inverts encoding; ints in WriteFloat are rounded twice (*viol* above 2^53; exact condition: the intermediate value halfway, the int beyond it).
- C129-C135 decoding side: every stream, not only written ones. `Spec/Decode` says what a byte string denotes; *viol* C132 (ReadVarBytes returns shortened
  data, missing variable data reads as 0 or empty), C134 (non-shortest VarInts and any nonzero bool byte accepted); C133, C129-C131 exact outcome for every stream and argument.
  C135 unique decodability and C136 whole records: induction over record types (`Props/Records`).
- C160, C161 any program of writer (reader) calls acts on any stream at any position in the same way: induction over programs, every primitive commutes with
  `overwrite` (`ahead`). C162, C163 failed calls; *viol* (half-written lists, lost input); C164 encodings (`Py/Codecs`), *viol* for UTF-16; C165 *viol* (empty hashes from nothing), exact result; C170 *viol* (number of items), bounds by induction over the items. C185 lone surrogates: induction over the text (`Model/Surrogates`). C182 class names: the last point splits the name (`Model/ClassLookup`).

### Numbers
- C24 BigInteger bytes, C101 two's complement and minimality for x >= 0, C25 *viol* minimality for negatives (exact iff). C26 arithmetic: floor laws.
- C27 Fixed8 exact ops, C84 // and %, C74 *viol* multiplication of amounts. C28 Floor/Ceil/ToInt, C29 division: binary64 error analysis, exact in a
  range, *viol* above. C30 FromDecimal of floats within one satoshi, *viol* exactness, exact condition by scaling to 53 bits and the two roundings (Fixed8Exact, Fixed8Large); C85 ints and Decimals exact.
  `Props/Fixed8Division`: the amounts for which they are right, exactly (`Proofs/FloatDiv`: when rounding a number changes its integral part).
- C31 TryParse: raising characterised; C86. C32 text output through shortest repr: exact below 2^26 units; *viol* above; at most eight places, so of all amounts with one text exactly one is right.
- C147, C148 error bounds and monotonicity of the float divisions inside Fixed8 for all 64-bit amounts: rounding to nearest is monotone, odd and has relative error 2^-53.
- C152 FromDecimal of all floats, in the same way.
- C156 text and `TryParse`: the shortest decimal of a float rounds back to that float, so reading the text back is `FromDecimal` of the nearest float; *viol* (29 satoshis), exact condition for 64-bit amounts, one-satoshi bound, exact cases, error bound. `float(text)`, `int(text)` by contract `Faithful`.
- C157 text and `Decimal`: exact below 2^26 units; `Decimal(text)` by contract `DecimalOf` (shown satisfiable).
- C171 NEP-2 texts: import inverted step by step; AES decryption is one to one on blocks because encryption is injective on a finite set. C172 `random_key`: the `repr` of a byte string ends at its first free quote (`Spec/BytesLiteral`).
- C168 value semantics: `Model/Fixed8Vars` has a heap of Fixed8 objects and variables; refinement to variables holding numbers, induction over programs. C169 powers *viol* (negative exponents give floats).
- C149-C151 mixed operators and `==` between classes: case analysis of CPython's dispatch; *viol* (plain ints come out, NotImplemented is truthy, AttributeError).

### UInt
- C33 ParseString/ToString. C34 eq/hash: inv over histories with a heap of byte arrays, *viol* under aliasing; C87 equality and hash as functions of contents.
- C35 order *viol* (byte 0 is never compared), exact characterisation; C88 operators; C175 `sorted` by its documented guarantee (`Spec/Sorting`), *viol*, exact condition. C36 size *viol* (short Deserialize); C89 constructors.
- C167 dictionaries: `Model/UIntDict` models CPython's look-up (stored hash, identity, `__eq__`) over the heap of C34; refinement to a finite map from contents.

### Helper, addresses, keys
- C37 Base58 ref of positional notation. C38, C39 addresses; C40, C41 *viol* (version byte), exact acceptance sets; C90; C42 np-utils.
- C43, C44 WIF. C45, C104 NEP-2 round trip; C46 *viol* (flag byte), C102. C47 construction, C48 agreement of derivations.
- C49 xor_bytes, C50 base256_encode, C51 hash helpers.
- C52 signing curve *viol* in a fresh process (a computed signature on the wrong curve); C91 after set-up, all histories.
- C53 VerifySignature totality *viol*; C92 shape of Sign; C93 exact acceptance condition = ECDSA validity on Mathlib's curve; C80 Sign/Verify round trip with the
  modelled packages: RFC 6979 nonce, Jacobian arithmetic refined to Mathlib's group law, order of the generator proved; *viol* for two corner cases.

- C111 create_wallet, C112 ADDRESS_VERSION, C113-C115 np-utils: the printed lines are values, compared with `Spec/BytesLiteral` (what a Python bytes literal
  denotes), hexadecimal text and Base58Check; C115 *viol* (decoding errors escape).
- C137 malleability *viol* (s and n-s verify both; exactly these two are proved to), C138 forms of a message, C139 nonces: reduction to a hash collision (`Spec/Nonce`). C166 the number of keys that accept a signature. C188 the number of messages a signature is accepted for (*viol*: two for keys made for it; at most four digests, and a second one gives the private key away), C189 the three forms of a public key.
- C140-C146 wallets: reduction of address collisions to hash collisions (C140), *viol* usable WIFs (C141: keys 0 and >= n), NFC (C142, *viol* where the length is counted before
  normalising), wrong passphrases (C143), *viol* embedded public keys (C144, C146), independence from process state (C145).
- C158 threads: `Model/Threads` interleaves calls at every access to a shared variable (parameters of the package, `_Instance`); rely-guarantee invariant (a variable that has its final
  value keeps it; `_Instance` set implies all parameters set), liveness under fairness; C159 *viol* (mixed parameters while another thread sets the curve).

### Merkle
- C54 root = recursive spec; C55 binding *viol* across lengths (exact condition for equal roots: `Props/MerkleSame`, spec `Spec/MerkleFill`), C103 binding for equal length (explicit collision); C56 depth; C57 leaves; C58 Trim *viol*,
  C94 exact effect, C173 of any sequence of calls; C59 links of all allocated nodes.
- C153 branches (`Spec/MerkleBranch`): read off the Parent links, complete and sound up to an explicit collision; C154 root of a concatenation: induction over levels.

### Curve
- C60, C95 extended Euclid (Python floor semantics, termination by |a|). C61, C96 field = ZMod p. C62 add = Mathlib's
  `WeierstrassCurve.Affine.Point` group law, every curve over a prime p > 3. C63, C105 neg/sub. C64 mul *viol* (`scalar /= 2` is float division):
  exact multiple computed. C65, C97 sqrtCQ. C75 FiniteField.sqrt, C79 decompress (float exponents; exact condition on p for p = 3 mod 4, with a square of maximal order). C66, C98, C76, C77, C78 encodings. C67 on-curve. C68 *viol*.
- C180 amounts of BigIntegers: the operators of `Model/Operators` inside the methods of Fixed8; *viol* for all that divide.
- C190 the hash objects a Merkle tree shares with its caller (`Model/MerkleShared`, on the objects of `UInt.Heap`): *viol*, frame theorem.
- C191 lengths in the other byte order (`Props/VarIntOrder`): *viol*, with the exact condition for numbers and byte strings.
- C192 the byte order option of encode_point (`Props/PointOrder`): *viol* (it names the opposite order), with the exact condition for the round trip.
- C193 floats as IEEE-754 words (`Props/FloatLayout`, specification `Spec/IeeeWord`): every word, both orders and the default.
- C194 WriteByte (`Props/WriteByte`): *viol* (any number of bytes, or none, without an error), its effect on every argument, exact conditions. C02's default byte order is there too.
- C195 NEP-2 as a standard (`Props/Nep2Standard`, specification `Spec.Nep2Standard` with the scrypt parameters): export gives exactly the standard's text, import of it returns the key.
- C196 layout of the composite writer methods (`Props/Layout`, specification `Spec/Layout`); C17's layout is there too.
- C197 `Size` against what `Serialize`/`WriteFixed8` append (`Props/DeclaredSize`); exact conditions for hashes and points.
- C198 `ToString`, `str`, `To0xString`, `ToBytes`, `ToString2` against the numeral specification of C34 (`Props/UIntTexts`).
- C199 the constants of `Fixed8` by order and sum (`Props/NamedAmounts`).
- C200 parameters against a transcription of SEC 2 (`Spec/NamedCurves`), primality and order by the certificates of C64/C122 (`Props/NamedCurves`).
- C201 exact set of keys with the right `calcpub` on secp256k1, from the closed form of the multiple `mul` computes (`Props/NamedCurves`); `sign`/`verify` relative to a correct multiplication, and a family of rejected signatures (`Props/SignK256`).
- C202 ranges of the coordinates of sums, multiples and negatives by induction over the loop of `mul`; identity from the group law of C62 (`Props/ReducedPoints`).
- C203 `float(text)` and `int(text)` of CPython modelled as scanners (`Py/NumberText`), proved to accept exactly the grammar of `Spec/NumberText` and to satisfy the contract `Faithful` of C31, C156 (`faithful_py`); outcome of `TryParse` for every text; error bound from the two roundings.
- C204-C206 `unhexlify` proved equal to a specification by numbers (`HexTextOf`: same number, two digits a byte); ToScriptHash, scripthash_to_address and pubkey_to_redeem for every byte string; *viol* single bytes (C204) and keys of other lengths than 33 bytes (C206) (`Props/ScriptHash`).
- C207, C208 `decode_privkey` of the `bitcoin` package with all its formats (`Model/Bitcoin`), its digit loops proved equal to the numbers of hexadecimal and Base58 texts (`Proofs/PrivateKeys`); every curve in force after any history has p, n ≤ 2^256, so Sign never raises for a key that was read; *viol* keys out of range and mistyped keys (`Props/SignForms`).
- C132 (exact), C209, C210 Every reader only looks at the bytes ahead of it and, if it ends early, has passed over all of them (`Props/StreamContext` Local, `Props/Truncation`); induction over record types gives: a record refuses truncation iff its last field is of fixed width; induction over the items of arrays and logs (`Spec/Recovery`); *viol* items that end in variable-length data.
- C211, C212 All writer methods divided at their calls of `stream.write` (`Model/WriterSteps`), proved to be the sequential model when run alone (`refines_client`); threads are arbitrary clients, interleaved by an arbitrary schedule; induction over the schedule, simulation of calls that write once (`Props/WriterThreads`, `Spec/Threads`); *viol* byte strings and variable-length numbers are torn.
- C213, C214 The same for readers (`Model/ReaderSteps`, `readsAs_client`, `Props/ReaderThreads`): the bytes delivered to a thread determine its results; simulation of calls that read once; *viol* byte strings.
- C219, C220 Programs that use a reader and a writer on one stream, as a tree of calls; induction over the program with C13, C160 and C161 (`Props/SharedStream`); *viol* unread bytes are overwritten, written ones are not found.
- C221 `==`, `!=` and `hash` with field values among the objects (`Model/ValueEq`), cases on the class of the other object and C120; *viol* None, byte strings, amounts raise; values are unhashable.
- C222-C224 `sum`, `max`, `min` and truth of objects (`Model/Builtins`): induction over the list, with the order of C35, C99; *viol* no `__radd__`, the lowest byte of hashes, keys and their negatives, no `__bool__`.
- C225 ReadString as the composition of a byte and a string of known length (`Props/ReadString`).
- C226, C227 the methods of the object `Crypto.Default()` returns (`Model/CryptoInstance`), over the histories of C91 (`Props/DefaultCrypto`).
- C65, C78 exact conditions in `Props/PublicKeyMore`.
- C215-C218 The stepwise reader and writer on an arbitrary stream object, given by what it answers to each read or write and how it changes (`Steps.runOn`): exceptions (C215, C217), short reads (C216: relation between a run on a stream that delivers less and one that does not), short writes (C218); induction over the steps and over programs (`Props/ReadErrors`, `Props/WriteErrors`); *viol* first bytes and array items (C215), reads that do not check the length (C216), ignored counts (C218).
- C187 several np-utils options in one call: equal to one call each, in turn (`callsInTurn`).
- C186 FromDecimal of Decimals of any length: 28 significant digits, `decimal.Overflow`; *viol*, exact condition. C181 TryParse against FromDecimal: floats exactly, ints by C31's condition, Decimals *viol*, exact condition below 2^53 units.
- C179 `hash` and `==`: case analysis over the classes, *viol* for Fixed8 and ECPoint.
- C178 methods of field values: attribute lookup among the methods of FiniteField, *viol* for `sqrtCQ`.
- C177 recursion depth of the Merkle functions: induction on the depth, with ⌈log2 n⌉ from `Nat.clog`. C184 hash calls: level sizes halve, induction on the length.
- C155 recursion depth of GCD: Lamé's theorem for Python's floored remainders; *viol* for Fibonacci numbers at every limit.
- C69, C99 order; C176 sorting, *viol*, exact condition. C70, C100 nonce reuse. C71 ECDSA of this module *viol* (always TypeError). C72 Lucas sequences ref of the recurrence. C73 *viol*.
- C116-C121, C174 field operators: values carry their own field; each operator is compared with congruence of integers (`Spec/FieldOps`); equality as congruence,
  *viol* division (C117), `iszero` on unreduced values (C118), text of negative integers (C119), transitivity across fields (C121).
- C122-C124 scalar multiplication for every scalar: closed form of the float-halving loop (a closed form of the coefficient
  actually computed), up to the overflow at 2^1025 - 2^971; *viol* injectivity (C122; exact classes of the scalars that are floats in `Props/ScalarClasses`, spec `Spec/Halving`, a kernel check that the 257*54 coefficients differ modulo the order) and negative scalars (C123); C125 keys correspond one to one (through the `bitcoin` package). C183 rounds of the loop: powers of two bound the float from both sides, induction over the exponent; *viol*.
- C126 `P / a` *viol* (always the float route), C127 public key recovery *viol* for findpk2/findpk, C128 text of points.
- Primality of the field primes and group orders of secp256r1 and secp256k1: Pratt certificates checked by the kernel. Order of the generator of secp256r1: double-and-add
  ladder evaluated by the kernel. Every point is a multiple of the generator (cofactor one): |E| is bounded by 2p+1 and n odd prime, with no 2-torsion (cubic without a root,
  gcd certificate).

Nothing in the list is considered inexpressible.

## 3. Trusted base

* Lean 4.33.0 kernel, Mathlib's definitions (imported module by module). Axioms of every property theorem: at most `propext`, `Classical.choice`, `Quot.sound`.
  No compiled evaluation is used: `decide +kernel` is evaluated by the kernel.
* The reading of the Python source and of CPython's semantics by the author; no code of /repo was executed.
* The third-party packages `base58`, `bitcoin`, `ecdsa` are not in the sandbox; their models follow their published sources. Theorems about signing and key derivation are
  stated relative to contracts (`DerivesPublicKeys`, `VerifiesEcdsa`, structure `Btc`) and separately the modelled packages are proved to satisfy the contracts
  (`pyBtc_derives`, Props/SignVerify). (Should the installed `base58` strip trailing white space before decoding, as its later versions do, the theorems about decoding apply to the stripped text; white space is otherwise outside the alphabet and refused.)
* Hashes, scrypt, AES, NFC normalisation are parameters (structure `Prims`): only output lengths, and that AES decryption inverts encryption, are assumed. `realPrims` is a
  concrete instance with SHA-256, RIPEMD-160, AES-256 and scrypt (so the contract is satisfiable); it reproduces the published digests in the repository's tests.
* Supported interpreters are Python 3.5 and 3.6 (setup.py): `pow(a, -k, p)` raises ValueError there; the model follows that.
* `Dtoa` (shortest repr digits) is a contract: the shortest decimal that rounds to the float, proved satisfiable.
* The statements in `Verif/Spec` and the English/formal correspondence.

## 4. What is modelled and what is not

`python3 tools/coverage.py` lists every function of /repo/neocore with the model definitions that cite its lines. Not modelled: log output,
argparse and its help text in `cli.main` (the printed results and the exit status are modelled), `sys.getsizeof` (MerkleTreeNode.Size, UIntBase/Fixed8 sizes other than constants), memory exhaustion, CPython's recursion limit (except in GCD, C155, and MerkleTree, C177), threads (except those sharing the curve, C158/C159: `Model/Threads`, and those sharing a writer or a reader, C211-C214: `Model/WriterSteps`, `Model/ReaderSteps`), NaN payloads, exception messages
(only classes), `int(len/2)`-style float roundings beyond 2^53 elements (stated where used).

One-line forwarders (`FiniteField.Value` operators, `ECPoint` operators) are modelled by the functions they forward to unless said otherwise.

## 5. Findings (each is a `_violated` theorem)

WriteBytes/WriteFixedString/WriteUInt/WriteHashes unhex binary data that looks like hex text (C10, C11, C12, C17); WriteVarInt leaves a stray 0xff when it refuses (C05),
writes nothing for small BigInteger/bool (C06), and the default read bound is 2^63-1 (C81); Write2000256List and Read2000256List disagree (C18); convert_to_uint on
negatives (C23); BigInteger bytes not minimal for negatives (C25); Fixed8 Floor/Ceil/ToInt, division, FromDecimal, TryParse, ToNeoJsonString lose satoshis through floats (C28-C32);
Fixed8 * and / multiply raw satoshi counts (C74); UInt hash goes stale under aliasing (C34); UInt ordering ignores the lowest byte (C35), so sorting hashes depends on the input order (C175), as does sorting a key and its negative (C176); Deserialize on a short stream
shrinks a UInt (C36); address validators accept other versions (C40, C41); NEP-2 header bytes unchecked (C46), 96/104-byte keys export NEP-2 that cannot be read (C45);
signing before set-up uses secp256k1 (C52); VerifySignature raises on malformed keys (C53), rejects valid keys with coordinates >= n (C80); Merkle roots of different lists collide (C55); Trim uses the same
index for both children (C58); modinv/division sign for negatives, division by zero gives 0 (C60, C61); P - Infinity (C63); scalar multiplication is wrong (C64); sqrtCQ for p = 1 mod 4 (C65);
Infinity and uncompressed encodings do not decode (C66); FromBytes_Secp256r1 lengths (C68); order not total (C69); crack2 sign (C70); ECDSA.secp256r1 unusable (C71);
next_random_integer range (C73); FiniteField.sqrt and decompress with float exponents (C75, C79); ToString double hex (C76); non-canonical and truncated encodings accepted (C77, C78); WriteFloat of
large ints rounds twice (C110); np-utils --address-to-scripthash ends in a traceback on texts that are not Base58Check (C115); field division, iszero, str and equality with unreduced or
foreign values (C117-C119, C121); `P * n` takes at most 28381 values over all 2^256 scalars (C122), so `calcpub` gives most keys the same few public keys; `P * -n` is `P * n` (C123);
`P / a` is not division (C126); findpk2 always raises and findpk raises on secp256r1 (C127); ReadVarBytes returns shortened data without an error and missing variable data reads
as 0 or empty (C132); non-shortest VarInts and any nonzero bool byte are accepted (C134); (r, n-s) verifies whenever (r, s) does (C137); a WIF of key 0 or of a number >= n imports but is no wallet
(C141); the passphrase length is counted before NFC (C142); a public key embedded in a 96- or 104-byte key is not checked (C144) and not exported (C146); BigInteger operators with an int on the left
give plain ints or floats (C149), Equals of a non-integer is truthy (C150), `==` of amounts and points with other objects raises AttributeError (C151);
threads that share a writer or a reader tear each other's byte strings and variable-length numbers (C211, C214); an I/O error in the first byte of a variable-length number reads as 0 (C215), short reads shorten byte strings (C216) and short writes lose bytes (C218) without an error; a log of records that end in variable-length data yields phantom records after a crash (C210), and an array of byte strings cut short is filled up with empty ones (C209); FiniteField.Value.sqrtCQ always raises AttributeError (C178); P * n takes over 1074 doublings for every n (C183); Fixed8 amounts and points cannot be hashed (C179); TryParse of a Decimal may lose a satoshi (C181); FromDecimal keeps 28 significant digits of a Decimal (C186); one signature is accepted for two messages under a key made for it (C188); encode_point's endian names the opposite byte order (C192); WriteByte writes any number of bytes, or silently none (C194); what WriteVarInt/WriteVarBytes write with endian='>' is not read back (C191); a Merkle root goes stale when a leaf object is deserialised into (C190); an amount made from a BigInteger loses its fraction in Ceil and in its text (C180); GCD raises RecursionError on numbers of about 700 bits (C155); TryParse(str(a)) loses a satoshi of some amounts, e.g. 29 satoshis (C156); a thread that signs while another sets the curve may use a mixture of two
curves' parameters (C159); failed list writes leave the first items behind (C162), failed reads lose what was left of the stream (C163), WriteVarString in UTF-16 always raises with
the length written (C164), ReadHashes makes up empty hashes when the stream is short (C165), as many as nine bytes can count (C170); a negative power of an amount is an object holding a float (C169); Size differs from what Serialize writes (C197); on secp256k1 exactly two private keys get the right public key, and signatures made by sign are rejected by verify (C201); Crypto.Default().Hash160 returns bytes, not hexadecimal text (C227).

## 6. Conformance tests

`Verif/Tests` replays every literal of /repo/tests that concerns modelled code (streams, numbers, Merkle roots, WIF/NEP-2/addresses, signatures), evaluated by the kernel. They are tests of the
model, not proofs, and are not listed in the manifest. Not replayed: verification with compressed keys (square root not kernel-evaluable in reasonable time).

The CPython layer (`Verif/Py`, `Model/Floats`, `Model/Hashes`, `Model/Primitives`, Decimals) was also compared with the standard library of a local CPython (not with /repo) on about 13,300 random cases:
`tools/pydiff/gen.py`, `gen2.py` and `gen3.py` write a Lean file that evaluates the model on the inputs and compares with what struct, float(), int(), int.to_bytes, binascii, bytearray.fromhex, utf-8/16, io.BytesIO,
decimal, repr(float), the int operators, hashlib, hmac and scrypt gave. No mismatch. This is evidence for the model, not part of any proof.

## 7. Seeded bugs

`tools/mutate.py` applies an edit to the model in a scratch copy, rebuilds, and logs which theorems fail to `seeded/LOG.jsonl`; the edits are in `seeded/list*.py`.
