# Design of the formal model of infi.instruct

This file is generated by `tools/gen_design.py` from `tools/design_head.md`, `tools/design_rows.json`,
`tools/notes.json`, `properties.jsonl` and the doc comments of the theorems.

The library has two independent halves:

* the **Struct** side (`src/infi/instruct/*.py`, `struct/`): stream based marshals;
* the **Buffer** side (`src/infi/instruct/buffer/`): fields placed at (bit-)positions of a byte buffer,
  resolved through a graph of lazily evaluated references.

Both are modelled in Lean 4, function by function, as total computable functions.

## Layout

* `lean/Verif/Py.lean`, `Bytes.lean`, `Kwargs.lean`, `Struct/*.lean`, `Buffer/*.lean`: the model.  Every definition
  cites the file and lines it models; simplifications are stated there.  Files called `…Lemmas`, `Frame`,
  `Progress` contain only lemmas; `Struct/Wire.lean` is a specification.
* `lean/Verif/Props/*.lean`: the properties.  A theorem `Cnn_…` belongs to property `Cnn`.  The specification it
  uses stands above it or in `Bytes.lean` / `Struct/Wire.lean`; an `example` with a concrete case that meets the
  hypotheses stands below it.
* `seeded/`: wrong programs.  `seeded/mutations.json` lists edits of the model, `tools/mutate.py` applies each
  one to a scratch copy, rebuilds, and records in `seeded/LOG.jsonl` which theorems are lost.

## Conventions

* **Exceptions are values**: `Res α = Except Err α`. `Err` has one constructor per Python exception class that
  the code can raise. Every error branch of the code is a branch of the model.
* **Bytes** are `List UInt8`; Python `int` is `Int` (unbounded) or `Nat` where the code guarantees the sign.
* **Fractional byte offsets.** The Buffer side uses Python floats that are multiples of 1/8. The model counts
  **bits** (`Nat`/`Int`), i.e. offset `1.25` is `10`. Floats represent multiples of 1/8 exactly below 2^50
  bytes; beyond that the model is not claimed.  A whole-valued float and the equal int are the same value, except
  where the code can tell them apart and a property depends on it (C59: `BytesIO.read` of a float).
* **Non-termination** is a value: `Err.diverges` is returned by a loop step that leaves the whole state
  unchanged while its condition still holds (the Python loop would then repeat for ever).
* **Recursion through classes** (a struct field whose marshal is another struct class) goes through a class
  table and a depth counter; exhausting it is `Err.recursion` (Python's `RecursionError`). Theorems hold for
  every depth.
* **Identity.** Values are immutable in the model of marshals and fields.  Where identity matters there is a separate
  model with a heap: construction of struct instances (`Struct/Init.lean`, C30) and contexts (`Kwargs.lean`, C64).
* Python 3 semantics on a 64-bit platform: `sys.maxsize = 2^63 - 1`.
* When the code violates a property of `properties.jsonl`, the property is stated in full as a `def Cnn… : Prop` or
  directly in the theorem, a theorem `…_refuted` proves its negation with a concrete witness, and a theorem
  `…_partial` proves the largest part that does hold.

## Trusted base

* The Lean 4 kernel.  The axioms each theorem depends on are listed at the end of this file (from `#print axioms`):
  at most `propext`, `Classical.choice` and `Quot.sound`.  There are no axioms of our own, no `sorry`, no
  `native_decide`, no `bv_decide`, no `implemented_by`, no `unsafe`, no `partial`.
* The transcription of the Python source into the model definitions.  As a check of it, `lean/Verif/Validate/` evaluates the
  assertions of the tests of the repository in the model: the same declarations, inputs and expected results
  (views, ranges, structs, buffers with the two SES pages).  Each file says which assertions are left out.
* The model of the Python primitives: `int` arithmetic and bit operations; `bytes`/`bytearray` indexing and slicing;
  `struct.pack/unpack` of one number; `io.BytesIO`; `dict`; `sorted` (as a stable insertion sort, or as *any*
  permutation without adjacent inversions in C38); attribute lookup as far as `getattr`/`setattr`/`hasattr` of
  instances, data descriptors and class attributes; method lookup of binary operators.
* Parameters of the model, so that theorems hold for all of them: the byte order of the host and whether C `long` has 8
  bytes; conversion between binary64 and binary32 (`FloatConv`, with the law "narrowing a widened value gives it back"
  as a hypothesis where needed; `ieee` is the conversion of IEEE 754, about which C95 is); text encodings; user functions (predicates, selectors, `__init__`,
  `set_before_pack` callables).

## What is modelled

File | Modelled | Not modelled
---|---|---
`numeric.py`, `numeric_macros.py` | marshals, all formats, what `to_repr` raises and the text it gives (Struct/Text.lean) | -
`string.py`, `string_macros.py`, `array.py`, `array_macros.py`, `padding.py`, `mapping.py`, `mapping_macros.py` | reading, writing, `sizeof`, `min_max_sizeof`, checks at declaration, what `to_repr` raises and the text it gives | -
`base.py` | `MinMax`, `ConstReader`, contexts, subclasses of `Marshal` written by the user (as parameters, `UserM`) | `_shallow_repr`; of `int_repr_format` and `float_repr_format` in contexts only which one is used (Struct/Text.lean), the format itself is a parameter
`struct/__init__.py` | metaclass and construction, reading, writing, `sizeof`, `min_max_sizeof`, updated contexts, what `__repr__` raises (Struct/Repr.lean) and its text (Struct/Text.lean) | old `__str__` of Python 2
`struct/bit.py`, `const.py`, `optional.py`, `pointer.py`, `selector.py`, `lazy.py` | everything, also objects with lazy containers inside other objects, `FixedSizeArray` and `VarSizeArray` | objects with lazy containers in `SumSizeArray`, and the same such object in two places
`struct_macros.py`, `macros.py` | what they accept and build (Struct/Macros.lean) | of the marshals that are not made for bits only numbers are modelled inside `BitFields`
`utils/bitstringio.py`, `utils/read_ahead_stream.py`, `utils/kwargs.py`, `utils/safe_repr.py` | everything (writing: Struct/Emit.lean; safe_repr: Buffer/Print.lean) | -
`errors.py` | one constructor of `Err` per class | messages
`buffer/range.py`, `buffer/io_buffer.py` | everything | `repr` of floats from 2^45 bytes on (Buffer/RangeText.lean)
`buffer/serialize.py` | all packers and unpackers; `json.dumps` and `json.loads` are parameters | `str(value)` of floats, bytes, lists and Buffers
`buffer/reference/*.py` | `deref`, contexts, all reference classes and operators, printing (Buffer/Print.lean) | thread safety
`buffer/field_reference_builder.py`, `buffer/macros.py`, `buffer/buffer.py` | fields, classes, inheritance, construction, `pack`, `unpack`, `calc_byte_size`, `__repr__` (Buffer/Print.lean) | marshals written by the user as elements of lists; what `pack()` does to the attributes of *nested* objects is modelled in Buffer/Deep.lean only: elsewhere only their bytes count
`buffer/compat.py` | everything | `to_repr`
`_compat.py`, tests | – | not modelled (Python 2 support)


## Properties

### C01 Integer marshals round-trip (proved)

For each integer marshal (UB/SB/UL/SL/UN/SN Int 8/16/32/64) and every integer in the range of its format,
create_from_string(write_to_string(v)) returns v and write_to_string emits exactly `size` bytes.

*Modelled:* Struct/Numeric.lean (`NumFmt`, `structPackInt`, `structUnpackInt`, `numWrite`, `numDecode`)

*Proved by:* positional base-256 digits; induction over the size; the range of the format gives injectivity.

* `C01_int_roundtrip` (Props/Numeric.lean): every integer in range is written as exactly `size` bytes and read back
  unchanged; the stream is left just after those bytes.

### C02 Integer marshals have the documented byte order and sign encoding (proved)

Byte k written by a big-endian (little-endian) marshal is the (size-1-k)-th (k-th) base-256 digit of the value modulo
2^(8*size); signed marshals use two's complement. Decoding yields the unique in-range integer congruent to the digit
sum.

*Modelled:* Struct/Numeric.lean (`NumFmt`, `structPackInt`, `structUnpackInt`, `numWrite`, `numDecode`)

*Proved by:* the specification is the digit sum modulo 2^(8·size) with two's complement; byte k is compared with the
k-th digit.

* `C02_byte_order` (Props/Numeric.lean): C02 (encoding): byte `k` is the `k`-th digit for least-significant-first
  formats and the `(size-1-k)`-th digit for the others.
* `C02_decode_value` (Props/Numeric.lean): C02 (decoding): what is decoded is in range and congruent to the digit sum
  modulo `256^size`, and it is the only such integer.

### C03 Integer marshals reject what they cannot represent (proved)

write raises InstructError exactly when the object is not an integer in range (and nothing is returned); read raises
NotEnoughDataError exactly when fewer than `size` bytes are available; every `size`-byte string decodes and re-encodes
to itself.

*Modelled:* Struct/Numeric.lean (`NumFmt`, `structPackInt`, `structUnpackInt`, `numWrite`, `numDecode`)

*Proved by:* case analysis of every branch of write and read; decoding followed by encoding is the identity on byte
strings of the right length.

* `C03_overflow` (Props/Details.lean): a float that has no 4-byte form raises `OverflowError`; every other float is
  written.
* `C03_write_rejects` (Props/Numeric.lean): C03 (write): exactly the integers in range are accepted; everything else
  is an `InstructError`.
* `C03_read_rejects` (Props/Numeric.lean): C03 (read): reading fails exactly when fewer than `size` bytes are
  available, with `NotEnoughDataError`.
* `C03_bytes_roundtrip` (Props/Numeric.lean): C03 (bijection): every `size`-byte string decodes to an integer that
  re-encodes to the same bytes.

### C04 Float marshals transport IEEE bit patterns in the declared byte order (proved)

A 32/64-bit float marshal writes the IEEE bit pattern of the value in the declared byte order and reads the same value
back whenever the value is representable in that width.

*Modelled:* Struct/Numeric.lean (`FloatConv`)

*Proved by:* the conversion between binary64 and binary32 is a parameter; its law is a hypothesis; the bytes are the
digits of the bit pattern.

* `C04_float_roundtrip` (Props/Numeric.lean): a representable float is written as its IEEE pattern in the declared
  byte order and read back. For 4 bytes the conversions between binary32 and binary64 are parameters of the model;
  "representable" means `widen (narrow x) = x`.

### C05 Bit stream: a sequence of writes is read back by the same sequence of reads (proved)

Writing values v1..vn with widths k1..kn into a fresh BitStringIO of enough bytes and then reading widths k1..kn from
its bytes returns vi modulo 2^ki, for any alignment; bits are laid out LSB-first; bits outside the written ranges stay
zero.

*Modelled:* Struct/BitIO.lean (`BitIO.read`, `BitIO.write`, `seek`)

*Proved by:* a buffer is its little-endian number; writing adds the masked value shifted by the position; induction
over the list of writes.

* `C05_bitstream_roundtrip` (Props/Numeric.lean): writing values into a fresh bit stream that is large enough gives
  the little-endian integer with the first value in the lowest bits (so all bits not written are zero); reading the
  same widths back from those bytes returns each value modulo `2^width`.

### C06 Bit stream never reads or writes outside its buffer (proved)

BitStringIO.read/write raise IOError exactly when position+bits exceeds the buffer; otherwise they succeed, advance
the position by exactly the requested number of bits and keep the buffer length.

*Modelled:* Struct/BitIO.lean (`BitIO.read`, `BitIO.write`, `seek`)

*Proved by:* both loops shown to stay within the bytes that the guard admits.

* `C06_write_bounds` (Props/Numeric.lean): C06 (write): `IOError` exactly when the bits do not fit; otherwise success,
  the position advances by the number of bits and the buffer keeps its length.
* `C06_read_bounds` (Props/Numeric.lean): C06 (read): `IOError` exactly when the bits are not there; otherwise
  success, exactly the bits of the buffer, the position advances by the number of bits and the buffer is unchanged.

### C07 BitFields structs round-trip and have the documented LSB-first layout (proved)

For a BitFields container of fields with widths k1..kn (sum divisible by 8), the serialized bytes are exactly the
little-endian integer sum(vi mod 2^ki << (k1+..+k(i-1))), padding bits are zero, and reading returns vi mod 2^ki for
each field.

*Modelled:* Struct/BitIO.lean, Struct/Schema.lean (`writeBits`, `readBits`, `bitContainerInit`)

*Proved by:* the specification is the weighted sum of the values; induction over the list of fields on top of C05.

* `C07_bitfields` (Props/BitFields.lean): a `BitFields` container with integer values `xs` is serialized as exactly
  the little-endian integer `Σ (xᵢ mod 2^kᵢ) · 2^(k₁+…+kᵢ₋₁)` (padding contributes 0); reading these bytes back
  (whatever follows them) consumes exactly them, gives every field its value modulo `2^k`, and leaves all other
  attributes alone.
* `C07_definition` (Props/BitFields.lean): C07 (definition): a container whose widths do not add up to whole bytes is
  rejected at class definition.

### C08 An out-of-range bit field value never corrupts its neighbours (proved)

Whatever integer (too large or negative) is stored in one bit field, every other field of the same container reads
back the value that was stored in it.

*Modelled:* the same as C07

*Proved by:* consequence of the layout: each field reads its own digits whatever the neighbours hold.

* `C08_no_corruption` (Props/BitFields.lean): an in-range value reads back unchanged whatever integers the other
  fields of the container hold (too large, negative, …).

### C09 Positional bit fields (Bits[...] slices) round-trip and occupy exactly their slices (proved)

For BitFields whose fields are given by pairwise disjoint bit slices, bit j of slice s of a field holds the
corresponding bit of the value (slices listed low part first), all bits outside the slices are zero, and reading
returns each value modulo 2^(total slice width).

*Modelled:* Struct/Schema.lean (`PBitF`, positional containers)

*Proved by:* bitwise extensionality: bit k of a value is at `slicePos slices k`; induction over slices and fields; the
declaration checks are characterised separately.

* `C09_positional` (Props/BitFields.lean): positional bit fields. The container occupies `bitSize/8` bytes; bit
  `slicePos slices k` of the container is bit `k` of the field's value (two's complement), every bit outside all
  slices is zero, and reading back gives every field its value modulo `2^(total width)` without touching other
  attributes.
* `C09_declared` (Props/BitFields.lean): C09 (declaration): a container that can be declared has room for every slice
  and takes whole bytes; it has the declared size, or else ends with the last slice.
* `C09_refused` (Props/BitFields.lean): C09 (declaration): a declared size that is too small for a slice, or not a
  multiple of 8, is refused.
* `C09_layout` (Props/BitFields.lean): C09 for a declared container: what `C09_positional` needs of its size is
  checked by the declaration.

### C10 Read-ahead is transparent (proved)

Any sequence of reads in read-ahead mode followed by any sequence of reads in normal mode on a ReadAheadStream
returns, in normal mode, exactly the bytes the underlying stream would have returned from its original position; read-
ahead streams may be nested.

*Modelled:* Struct/Stream.lean (`ahead`, `read`)

*Proved by:* refinement of a read-ahead stream to its remaining bytes; induction over the reads.

* `C10_read_ahead_transparent` (Props/Selectors.lean): whatever is read ahead, and however reads ahead and normal
  reads are interleaved, the normal reads return what the same reads on the underlying stream `s` (itself possibly a
  read-ahead stream in normal mode) return; and when nothing is left in the read-ahead buffer, the underlying stream
  is where those reads alone would have left it.
* `C10_peek_then_read` (Props/Selectors.lean): C10, the plain pattern: read ahead, then read normally.

### C11 Function selectors peek without consuming (partial)

Reading through a FuncStructSelector yields the same object and leaves the stream at the same place as reading
directly with the struct class the function selects, whatever the function peeked at, provided the struct reads at
least the peeked bytes; otherwise InstructError is raised. The function given to SelectStructByFunc gets the object
that contains the field, with the attributes read before it.

*Modelled:* Struct/Schema.lean (function selectors), Struct/Stream.lean

*Proved by:* transparency from C10 and the frame lemma (a read depends only on the bytes it consumes); refutations by
computation.

*Result:* Transparent when every peeked byte is consumed by the selected struct; the code raises AttributeError on
leftovers and SumSizeArray cannot be read inside a selector (refutations proved). C11_object: the object that
SelectStructByFunc passes to the function; in a nested struct it is the outermost object, with a _context_ None
(C11_object_refuted).

* `C11_object` (Props/SelectByFunc.lean): `SelectStructByFunc` in a struct that is read on its own.
* `C11_object_refuted` (Props/SelectByFunc.lean): C11 is violated for structs inside other structs, and for structs
  with a `_context_`: the function gets the outermost object in the first case (here `n` is 2 there, and 3 in the
  object that is read), `None` in the second.
* `C11_selector_transparent_partial` (Props/Selectors.lean): C11 (partial): the statement holds for schemas without
  `SumSizeArray` and without negative sizes (`RegularCls`), except that the error raised for left-over peeked bytes is
  `AttributeError` instead of `InstructError`.
* `C11_leftover_refuted` (Props/Selectors.lean): C11 is violated: left-over peeked bytes raise `AttributeError`
  (struct/selector.py:76-77 formats the error with `result.to_repr(context)`).
* `C11_sumArray_refuted` (Props/Selectors.lean): C11 is violated for a `SumSizeArray` behind a selector: the direct
  read succeeds and consumes the peeked byte, but through the selector there is no `tell` and the fallback raises
  `NameError` (array.py:62).

### C12 StructSelector reads the struct class mapped to the key in the stream (partial)

StructSelector(key_marshal, mapping, default) reads with mapping[key] when the peeked key is in mapping, with default
otherwise, and raises InstructError when there is neither.

*Modelled:* Struct/Schema.lean (`StructSelectorMarshal`)

*Proved by:* the model keeps the bug that `self.mapping` is iterated instead of `mapping`; default branch as C11.

*Result:* The mapping is never consulted by the code (selector.py:12-18), so only the default branch can be proved;
the mapped branch is refuted.

* `C12_default_partial` (Props/Selectors.lean): C12 (partial): the selector behaves as documented for keys that are
  **not** in the mapping (for the schemas of `C11`). Missing: keys in the mapping, see `C12_mapped_refuted`.
* `C12_mapped_refuted` (Props/Selectors.lean): C12 is violated: a key that is in the mapping is reported as "not
  mapped" (`self.mapping` is never filled, struct/selector.py:12-18).
* `C12_mapping_ignored` (Props/Selectors.lean): Mapped keys are never found: with a default, it is the *default* that
  is used for them (this is what the code does, for every mapping).

### C13 Length-prefixed strings and buffers round-trip (partial)

VarSizeBuffer: reading what was written returns the same bytes for every byte string whose length fits the size
marshal, and writing a longer one raises InstructError. VarSizeString: reading returns the string with padding
characters stripped on the configured side(s); a read with fewer bytes than announced raises InstructError.

*Modelled:* Struct/Schema.lean (marshals of string.py, array.py, padding.py, mapping.py)

*Proved by:* round trip from C01 for the prefix and the strip laws; error branches by cases.

*Result:* All directions and padding bytes; with the default text padding of the macro nothing at all can be written
or read (C13_default_all_refuted). Exact exceptions for text, lists and other values (C13_other_values).

* `C13_string_roundtrip` (Props/Strings.lean): C13 (round trip): writing a string strips it, and (if the stripped
  length is representable) reading gives the stripped string back from any stream that starts with the written bytes.
* `C13_buffer_roundtrip` (Props/Strings.lean): C13 (buffers): every byte string whose length fits is written and read
  back unchanged.
* `C13_too_long` (Props/Strings.lean): C13 (too long): a string whose stripped length does not fit raises
  `InstructError`.
* `C13_short_data` (Props/Strings.lean): C13 (short data): fewer bytes than the size announces raises `InstructError`,
  for every size marshal.
* `C13_default_padding_refuted` (Props/Strings.lean): C13 is violated by the `VarSizeString` macro with its default
  arguments (string_macros.py:9): the padding is text, and every write of a byte string raises `TypeError`.
* `C13_default_all_refuted` (Props/Strings.lean): C13 is violated by such a field for every value: with text as
  padding and a direction, nothing can be written, be it bytes, text or anything else, and nothing can be read.
* `C13_other_values` (Props/Strings.lean): C13 (other values): only bytes are written. Text raises a `TypeError`, and
  so does a list if nothing is stripped, after the length has been written if it fits (otherwise an `InstructError`);
  other values raise a `TypeError` if nothing is stripped, and else, like lists, an `AttributeError`. `sizeof`,
  though, counts the characters of a text and the items of a list if nothing is stripped.

### C14 Fixed-size strings always occupy exactly their size and round-trip (partial)

PaddedString/FixedSizeBuffer of size n always writes exactly n bytes (or raises), and reading returns the original
string stripped of padding.

*Modelled:* Struct/Schema.lean (marshals of string.py, array.py, padding.py, mapping.py)

*Proved by:* length of the written bytes and strip-after-pad laws; refutations by computation.

*Result:* Proved for right/both padding of strings that fit; over-long strings and left padding are refuted. C14_exact
says exactly which strings and paddings round-trip.

* `C14_padded_partial` (Props/Strings.lean): C14 (partial): strings that fit, padded on the right or on both sides
  (or, whatever the direction, of exactly the right size) are written as exactly `n` bytes and read back stripped.
  Missing: strings that are too long (`C14_overlong_refuted`), left padding and no padding (`C14_left_refuted`).
* `C14_buffer_partial` (Props/Strings.lean): C14 (buffers, partial): `FixedSizeBuffer` round-trips byte strings of
  exactly its size and raises on shorter ones. Missing: longer ones.
* `C14_written_length` (Props/Strings.lean): C14 (what is written): the exact length of whatever is written.
* `C14_read_exact` (Props/Strings.lean): C14 (reading): a read consumes exactly `n` bytes or raises `InstructError`.
* `C14_overlong_refuted` (Props/Strings.lean): C14 is violated: a string that is too long is written in full
  (string.py:70-74 never checks).
* `C14_left_refuted` (Props/Strings.lean): C14 is violated for left padding: the padding is written on the right,
  where reading does not strip it.
* `C14_exact` (Props/Strings.lean): C14, exactly: with padding characters given, a string is written as `n` bytes that
  read back as the stripped string if and only if the stripped string has `n` bytes, or fewer and the padding is on
  the right or both sides (or on the left, if nothing is left of the string).

### C15 Arrays round-trip element-wise (proved)

VarSizeArray and FixedSizeArray: reading what was written returns the same list of elements in the same order and
consumes exactly the written bytes; a VarSizeArray whose length does not fit the size marshal raises.

*Modelled:* Struct/Schema.lean (marshals of string.py, array.py, padding.py, mapping.py)

*Proved by:* induction over the list for an arbitrary element marshal that round-trips.

* `C15_varArray_roundtrip` (Props/Arrays.lean): C15 (`VarSizeArray`): if each element round-trips through the element
  marshal (whatever it is) and the number of elements fits the size field, the list round-trips, consuming exactly the
  written bytes.
* `C15_varArray_too_long` (Props/Arrays.lean): C15 (`VarSizeArray`, too long): a list whose length does not fit the
  size field raises `InstructError`.
* `C15_fixedArray_roundtrip` (Props/Arrays.lean): C15 (`FixedSizeArray`).
* `C15_read_count` (Props/Arrays.lean): C15 (reading): the number of elements read is the announced one.

### C16 A FixedSizeArray only ever writes n elements (partial)

Writing a list whose length differs from the declared n raises an error rather than emitting a malformed array.

*Modelled:* Struct/Schema.lean (marshals of string.py, array.py, padding.py, mapping.py)

*Proved by:* by cases; refutation by computation.

*Result:* The code does not check the length when writing (refuted); reading and the default are proved.

* `C16_length_refuted` (Props/Arrays.lean): C16 is violated: a list of any length is written (array.py:31-34; nothing
  compares with `self.size`).
* `C16_length_ignored` (Props/Arrays.lean): What the code does: the declared length plays no role in writing.
* `C16_read_and_default_partial` (Props/Arrays.lean): C16 (partial): reading only ever produces `n` elements, and the
  declaration macro rejects a default list of another length. Missing: writing a list of another length.

### C17 SumSizeArray consumes exactly the announced number of bytes (partial)

A successful read of a SumSizeArray consumes exactly the announced number of bytes after the size; overshoot raises;
reading back what was written returns the same list.

*Modelled:* Struct/Schema.lean (marshals of string.py, array.py, padding.py, mapping.py), Struct/Progress.lean

*Proved by:* induction over the remaining announced bytes using the progress lemma.

*Result:* Exact consumption and overshoot proved in full; the round trip needs non-empty elements, refuted otherwise.

* `C17_exact_consumption` (Props/Arrays.lean): C17 (consumption): a successful read consumes exactly the announced
  number of bytes after the size, whatever the size and element marshals (selector functions may only read).
* `C17_roundtrip_partial` (Props/Arrays.lean): C17 (round trip): a list of elements that round-trip, each with at
  least one byte, round-trips.
* `C17_overshoot` (Props/Arrays.lean): C17 (overshoot): when the first element of the remaining ones consumes more
  than what is left of the announced bytes, the read raises.
* `C17_empty_elements_refuted` (Props/Arrays.lean): C17 (round trip) is violated for elements without bytes: two empty
  structs are written as an empty array.

### C18 Reading terminates on every input (partial)

create_from_stream returns or raises on every finite input, for every schema.

*Modelled:* Struct/Schema.lean (marshals of string.py, array.py, padding.py, mapping.py), Struct/Progress.lean

*Proved by:* every loop step consumes input or stops; `Err.diverges` is unreachable under `NoHang`/`ClsEats`;
refutation by computation.

*Result:* Termination proved for all inputs when elements of SumSizeArrays cannot be read from nothing; refuted
otherwise.

* `C18_terminates_partial` (Props/Arrays.lean): C18 (partial): reading returns or raises on every input, for every
  schema in which the user's functions return and the elements of every `SumSizeArray` contain something that cannot
  be read from nothing (`NoHang`, `ClsEats`): a number, a non-empty fixed-size string, a bit field, …. Missing:
  `SumSizeArray`s of elements that may consume nothing.
* `C18_marshal_terminates_partial` (Props/Arrays.lean): C18 for marshals without `SumSizeArray` inside: no condition
  on what elements consume is needed.
* `C18_hang_refuted` (Props/Arrays.lean): C18 is violated: a `SumSizeArray` of padded structs hangs on a truncated
  input, because byte padding does not notice the end of the data (padding.py:13-14) and the loop makes no progress
  (array.py:58-63).

### C19 Mapping fields are injective code books (proved)

For a mapping field, reading what was written returns the same key; a code that is not in the table or a key that is
not in the table raises; tables with duplicate codes are rejected at definition.

*Modelled:* Struct/Schema.lean (marshals of string.py, array.py, padding.py, mapping.py)

*Proved by:* injectivity of the inverted table.

* `C19_duplicate_codes_rejected` (Props/Arrays.lean): C19 (definition): a table is accepted only if its codes are
  hashable and pairwise different and the code marshal has a fixed size; in particular a table with a duplicate code
  is rejected.
* `C19_mapping_roundtrip` (Props/Arrays.lean): C19 (round trip): in an accepted table (a Python `dict`, so its keys
  are pairwise different), a key whose code round-trips through the code marshal round-trips through the mapping.
* `C19_unknown_key` (Props/Arrays.lean): C19 (unknown key): a key that is not in the table raises `KeyError` on write.
* `C19_unknown_code` (Props/Arrays.lean): C19 (unknown code): a code that is not in the table raises `KeyError` on
  read.

### C20 Any struct schema round-trips (partial)

For every struct class built from the library's fields (plain, anonymous, const, optional, bit, positional bit,
arrays, strings, mapping, nested structs, selectors, pointers) and every instance whose attributes fit the fields,
create_from_string(write_to_string(obj)) gives an object with the same attributes.

*Modelled:* Struct/Schema.lean, specification Struct/Wire.lean

*Proved by:* `Wire` gives the bytes of a value declaratively; write produces them and read accepts them, by mutual
induction over marshals, fields and the depth of classes.

*Result:* Round trip proved for schemas and instances with a wire form (every marshal, nesting, optionals, bit
fields); an optional field with a non-None default is refuted.

* `C20_schema_roundtrip_partial` (Props/Structs.lean): C20 (partial): an instance whose attributes fit the schema
  (`wireCls`: the grammar of `Wire.lean`, any nesting depth) is serialized to its representation, and
  `create_from_string` of that gives the attributes back. The instance may carry further attributes that are not
  fields; they are not serialized. Missing: instances outside the grammar (optional fields with a default other than
  `None` that are absent, `SumSizeArray`s with empty elements, mapped `StructSelector`s, …): see
  `C20_optional_default_refuted` and C12, C17, C25.
* `C20_optional_default_refuted` (Props/Structs.lean): C20 is violated by an optional field with a default other than
  `None`: written with its value `None`, i.e. absent, it comes back as the default.

### C21 Reading consumes exactly the bytes that were written (proved)

When a serialized struct is followed by arbitrary further bytes, reading it leaves the stream exactly at those further
bytes, so messages can be concatenated and read back one by one (any number of messages).

*Modelled:* Struct/Schema.lean, specification Struct/Wire.lean

*Proved by:* C20 with arbitrary bytes behind; induction over the list of messages.

* `C21_messages` (Props/Structs.lean): serialized messages (of any classes, any number) followed by anything are read
  back one by one, and the stream is left exactly behind the last one.
* `C21_written` (Props/Structs.lean): C21 for the bytes the library writes: writing the messages one after the other
  gives the concatenation.

### C22 sizeof equals the number of bytes written (partial)

Whenever write_to_string succeeds, sizeof(obj) equals the length of its result.

*Modelled:* Struct/Schema.lean, specification Struct/Wire.lean

*Proved by:* induction over the schema: `sizeof` is the length of the wire form.

*Result:* Proved unless a fixed-size string is over-long or a subclass instance sits in a struct field; both are
refuted.

* `C22_sizeof_partial` (Props/Sizes.lean): C22 (partial): whenever an instance can be written, `sizeof` is the number
  of bytes, for every schema, provided fixed-size strings are not overlong and struct-typed fields hold instances of
  exactly the declared class. Missing: those two cases, refuted below.
* `C22_marshal_sizeof_partial` (Props/Sizes.lean): C22 (partial) for marshals.
* `C22_overlong_refuted` (Props/Sizes.lean): C22 is violated by an overlong fixed-size string, which is written in
  full.
* `C22_subclass_refuted` (Props/Sizes.lean): C22 is violated by an instance of a subclass in a struct field: `write`
  uses its own class, `sizeof` the declared one (struct/__init__.py:174, 189).

### C23 min_max_sizeof brackets every serialized size (partial)

For every class and every instance that can be serialized, min_max_sizeof().min <= len(bytes) and len(bytes) <=
min_max_sizeof().max (or the bound is reported as unbounded).

*Modelled:* Struct/Schema.lean, specification Struct/Wire.lean, Struct/MinMax.lean

*Proved by:* induction over the schema: every wire form has a length between the bounds; refutations by computation.

*Result:* Proved when variable sizes are stored as integers and no StructSelector occurs; pointer-sized strings and
StructSelector sums are refuted.

* `C23_min_max_partial` (Props/Sizes.lean): C23 (partial): `min_max_sizeof` brackets the number of bytes of every
  instance that can be written, for every schema whose variable sizes are stored as integers (not taken from a pointer
  or constant), without `StructSelector`s, for instances whose fixed-size strings and arrays have the right length.
  Missing: the other cases, refuted below.
* `C23_pointer_refuted` (Props/Sizes.lean): C23 is violated by a string whose size comes from a `ReadPointer`
  (reported as always empty).
* `C23_selector_refuted` (Props/Sizes.lean): C23 is violated by a `StructSelector`, whose minimum is the *sum* over
  its classes.

### C24 MinMax arithmetic (partial)

MinMax clips to [0, sys.maxsize]; addition is commutative and associative with ZERO_MIN_MAX as unit, keeps min <= max,
and a sum with an unbounded operand is unbounded. Two MinMax print alike exactly if they are equal.

*Modelled:* Struct/MinMax.lean

*Proved by:* integer arithmetic.

*Result:* Clipping, commutativity, unit and sums proved while the minima add up to at most sys.maxsize; negative
maxima and overflow are refuted.

* `C24_text` (Props/ReprText.lean): two `MinMax` have the same text exactly if they are equal.
* `C24_clip_refuted` (Props/Sizes.lean): C24 is violated: the assertion is made before clipping, `MinMax(-5, -3)` is
  `(0, -3)`.
* `C24_clip_partial` (Props/Sizes.lean): C24 (partial): construction clips to `[0, sys.maxsize]` and rejects reversed
  bounds; the result is well-formed if the interval meets `[0, sys.maxsize]`.
* `C24_add` (Props/Sizes.lean): C24 (addition): commutative; the zero bounds are the unit; an unbounded summand makes
  the sum unbounded.
* `C24_sum_partial` (Props/Sizes.lean): C24 (sums, partial): as long as the minima add up to at most `sys.maxsize`,
  the sum of any number of bounds is the sum of the minima and the clipped sum of the maxima; so it does not depend on
  order or grouping.
* `C24_order_partial` (Props/Sizes.lean): C24 (order, partial): reordering the summands changes nothing, as long as
  the minima add up to `sys.maxsize`.
* `C24_overflow_refuted` (Props/Sizes.lean): C24 is violated when the minima exceed `sys.maxsize`: `(M,M) + (1,1)` is
  `(M+1, M)`, and adding zero to it raises.
* `C24_unbounded` (Props/Sizes.lean): the bounds of a field of which nothing is known (the default of a selector
  function): they hold for every size from 0 to `sys.maxsize`, and adding them to valid bounds keeps the lower bound
  and leaves no upper one.

### C25 Const fields are enforced (partial)

Reading succeeds only if the bytes decode to the declared constant (otherwise InstructError), writing always emits the
constant whatever happened to the instance, and assigning any other value raises.

*Modelled:* Struct/Schema.lean (`ConstField`, `constErr`, `assignErr`), Struct/Init.lean, Struct/Repr.lean,
Props/Equality.lean

*Proved by:* by cases on the comparison; refutations: structs have no `__eq__`, and the message prints the value;
equality of floats: uniqueness of sign, mantissa and exponent, checked against the value of the bit pattern.

*Result:* Read checks, writes and assignment proved; refuted: a constant that is a Struct instance never equals what
is read, and building the message of the InstructError can itself fail (constant that cannot be printed: TypeError;
assigning a Struct instance: NotImplementedError); a constant NaN is written but rejected when read back, and the
constant 0.0 accepts -0.0. What "decodes to the constant" means is tied to IEEE 754 values and to Python equality of
ints, floats, strings and lists.

* `C25_float_equality` (Props/Equality.lean): two doubles are equal iff they are the same number (so the two zeros
  are) or the same infinity; a NaN equals nothing.
* `C25_int_equality` (Props/Equality.lean): an int equals a double iff it is the same number.
* `C25_equality` (Props/Equality.lean): lists are equal iff they have the same length and equal elements; integers,
  byte strings and texts iff they are the same; values of different kinds, and Struct instances, never are.
* `C25_float_constant_refuted` (Props/Equality.lean): a constant NaN can be written, but the bytes written cannot be
  read: it does not equal itself (const.py:20). A constant 0.0 also accepts the bytes of -0.0.
* `C25_bits` (Props/Refusals.lean): C25, bit fields: a struct is read only if the bits at the place of a constant bit
  field are those of the constant; otherwise the exception is `InstructError`.
* `C25_read_checks` (Props/Structs.lean): C25 (reading): if a struct with a const field is read, the bytes at the
  field's place decode to the constant; if they decode to anything else the read raises, and if the constant is one
  that its marshal can write the exception is `InstructError`.
* `C25_write_constant` (Props/Structs.lean): C25 (writing): whatever the attributes of the instance are, the bytes at
  the place of a const field are those of the constant.
* `C25_assignment` (Props/Structs.lean): C25 (assignment): after any history of assignments the attribute still reads
  as the constant; assigning a value that differs from the constant raises, and the exception is `InstructError`
  unless the value is a Struct instance.
* `C25_exception_refuted` (Props/Structs.lean): the exception is not always `InstructError`. A constant that its
  marshal cannot print makes the check fail with the `TypeError` of the message (const.py:21-23), and so does the
  assignment of a Struct instance with the `NotImplementedError` of its `__str__` (const.py:39,
  struct/__init__.py:234).
* `C25_struct_constant_refuted` (Props/Structs.lean): a constant that is a struct can be written but never read back:
  the instance just read is a different object (const.py:20; `Struct` has no `__eq__`). Reading "succeeds if the bytes
  decode to the constant" fails.

### C26 Optional fields appear exactly when set / when the predicate holds (proved)

Writing emits an optional field iff its value is not None; reading reads it iff the predicate holds on the fields read
so far and leaves the default otherwise; read-after-write is the identity when the predicate agrees with presence and
the default is None.

*Modelled:* Struct/Schema.lean (`OptionalField`)

*Proved by:* by cases on the predicate and the value.

* `C26_write` (Props/Structs.lean): C26 (writing): an optional field emits nothing if its value is `None` and the
  bytes of its value otherwise.
* `C26_size` (Props/Structs.lean): C26 (size): an optional field counts nothing if its value is `None` and the size of
  its value otherwise.
* `C26_read` (Props/Structs.lean): C26 (reading): an optional field is read iff the predicate holds for the fields
  read so far; otherwise nothing is consumed and the attribute keeps its value (the default).
* `C26_read_default` (Props/Structs.lean): C26 (absent fields keep the default): with the predicate false, the
  attribute of the object that was read is the declared default, provided no other field has that name.

### C27 ReadPointer takes its value from the struct that contains it (partial)

A size given by ReadPointer('x') uses the value of field x of the struct in which the pointer field is declared, as
read earlier from the same stream.

*Modelled:* Struct/Schema.lean (`ReadPointer`), contexts

*Proved by:* evaluation of the two-field pattern with arbitrary prefix; refutation by computation with a nested
struct.

*Result:* Pointer to a field of the same outermost struct proved; inside a nested struct the pointer resolves in the
outermost struct (refuted).

* `C27_pointer_string_partial` (Props/Structs.lean): C27 (partial, strings): in a struct that is read on its own
  (empty context), a string declared with `ReadPointer(x)` has exactly the length that field `x` of that struct was
  read with. Missing: the same for a struct nested in another one, which is false (`C27_nested_refuted`).
* `C27_nested_refuted` (Props/Structs.lean): C27 is violated for nested structs: the context of the outermost struct
  overrides the one of the struct that contains the pointer (struct/__init__.py:224), so the inner string is sized by
  the *outer* `n`.

### C28 Lazy fields are observationally equal to eager fields (partial)

For a struct read from a complete input, any sequence of attribute reads, attribute writes, serializations and size
queries gives the same results whether the fields are inside Lazy(...) or not.

*Modelled:* Struct/Lazy.lean, Struct/LazyTree.lean

*Proved by:* simulation between the lazy and the eager object over all histories of operations; the invariant relates
the kept bytes to the fields not yet read. Trees of such objects stand for ordinary values; induction over the
classes.

*Result:* Proved for every class whose lazy containers hold ordinary fields and padding of fixed size (numbers,
strings with padding, mappings, arrays, structs of these), every input that the eager class accepts, and every
sequence of operations, except size queries when an array is inside. C28_nested_partial: the same for objects of such
classes inside other objects and arrays, to any depth, with programs that reach the objects inside through attributes
and indices. Refuted in full: bit fields inside Lazy have their default until the container is instantiated and
assignments before that are lost, constants inside Lazy raise KeyError, the size of an array inside Lazy never
changes.

* `C28_unset` (Props/Details.lean): serializing an object where a field inside `Lazy(...)` has no value (a new object,
  or an optional field that was not there) raises `KeyError`, whatever the default of the field is.
* `C28_partial` (Props/Lazy.lean): C28 (partial): if the class without `Lazy(...)` can be read from the input, so can
  the class with it, the same bytes being used, and then every sequence of attribute reads, attribute writes,
  serializations and size queries has the same results. Missing: bit fields and constants inside `Lazy(...)`, and the
  size of arrays inside it (`arr`), for which this is false.
* `C28_refuted` (Props/Lazy.lean): `Lazy(BitFields(BitField("x", 8)))`: before the container is instantiated, `x` has
  its default.
* `C28_lost_write_refuted` (Props/Lazy.lean): A value assigned to a bit field before the container is instantiated is
  overwritten when another field is read.
* `C28_array_refuted` (Props/Lazy.lean): An array inside `Lazy(...)`: after an array of another length is assigned,
  the size is still the old one.
* `C28_const_refuted` (Props/Lazy.lean): A constant inside `Lazy(...)`: reading it raises `KeyError`.
* `C28_nested_partial` (Props/LazyTree.lean): C28 (partial), for objects in objects and in arrays, to any depth: if
  the class without `Lazy(...)` anywhere can be read from the input, so can the one with it, the same bytes being
  used, and then every sequence of operations on the object and the objects in it — attribute reads, attribute writes,
  serializations, size queries — has the same results.
* `C28_optional` (Props/Refusals.lean): an optional field inside `Lazy` (its marshal takes no bytes, see `lazySize`),
  accessed for the first time: the predicate is called with the instance as it is then. If it does not hold, the
  attribute is not set, and accessing it raises `KeyError`; if it holds the value is what the marshal reads.

### C29 Truncated input is rejected (partial)

Reading any strict prefix of a serialized object raises an error instead of returning an object.

*Modelled:* Struct/Schema.lean, specification Struct/Wire.lean, Struct/Frame.lean

*Proved by:* a successful read of a truncated input would, by the frame lemma, also be a successful read of the whole
one with fewer bytes.

*Result:* Proved for regular schemas; BytePadding and positional bit containers accept truncated input (refuted).

* `C29_truncation_partial` (Props/Structs.lean): C29 (partial): for every schema of regular fields (`RegularCls`
  without byte padding: sizes are never negative, bit containers are covered by their fields, selector functions only
  peek) reading any strict prefix of a serialized object raises. Missing: byte padding, positional bit containers
  whose last byte no field uses.
* `C29_padding_refuted` (Props/Structs.lean): C29 is violated by byte padding: a struct that ends with padding is read
  although the padding is missing.
* `C29_positional_refuted` (Props/Structs.lean): C29 is violated by a positional bit container that is larger than its
  fields.

### C30 Struct construction sets every field from keyword arguments or its default (partial)

After construction each declared field has the keyword value if one was passed and the (copied) declared default
otherwise; const fields keep their constant; keywords that are not fields reach the user's __init__, and fields named
by the user's __init__ parameters are passed to it as well.

*Modelled:* Struct/Init.lean (heap, `copy_if_supported`, metaclass `__init__`)

*Proved by:* invariants over `prepare_instance`; the copies are new heap objects; cases on the user's `__init__` and
inheritance.

*Result:* Proved for every class, every keyword and every default, with the copy made for each instance. Refuted in
full: a field whose name is already an attribute of the class (a method of Struct such as sizeof) does not get its
default, and a keyword-only parameter of a user-written __init__ is not passed although it names a field. Fields
inside Lazy get no value at all (C30_lazy).

* `C30_assigned` (Props/Details.lean): what is assigned to an attribute is what is read from it afterwards, unless the
  class has a constant there; a default of the class gives way to it. Other attributes keep their values.
* `C30_base_lazy` (Props/Details.lean): an ordinary field in a class derived from one where the field of that name is
  inside `Lazy(...)`: the descriptor of the base is still there, so that creating an object without a value for the
  field raises `KeyError`: `hasattr` lets it through.
* `C30_partial` (Props/Init.lean): **C30** Construction of a class, with any chain of bases, none of which has an
  `__init__`.
* `C30_separate` (Props/Init.lean): Two instances made one after the other never share the copy of a default, and
  neither is the default.
* `C30_user` (Props/Init.lean): The `__init__` of the class itself is called on an instance whose fields are set; it
  gets the positional arguments, the keywords that are no fields, and those that are named by its positional
  parameters.
* `C30_inherited` (Props/Init.lean): The `__init__` of a base, when the class has none, gets no keyword that names a
  field, not even those that its parameters name.
* `C30_lazy` (Props/Init.lean): A lazy field that is not passed does not get its default: reading it raises
  `KeyError`.
* `C30_refuted` (Props/Init.lean): A field called `sizeof` does not get its default.
* `C30_user_refuted` (Props/Init.lean): A keyword-only parameter with the name of a field is not passed.
* `C30_replaces` (Props/Refusals.lean): a class that has `_fields_` has exactly these fields, whatever the bases have:
  an instance gets no attribute for a field that only a base has.
* `C30_inherits` (Props/Refusals.lean): a class without `_fields_` has those of its base.
* `C30_base_constant` (Props/Refusals.lean): a constant of a base hides a field that the class declares under the same
  name. The field never gets its default, but the constant; passing any other value raises `InstructError`, and so
  does assigning it later.

### C31 BitView slicing selects exactly the requested bits (proved)

For every view and every pair of (possibly negative or out-of-range) bit offsets, view[a:b] contains exactly the bits
a list slice of the view's bits would contain; slicing slices composes.

*Modelled:* Buffer/BitView.lean

*Proved by:* bitwise extensionality.

* `C31_slice` (Props/BitViews.lean): `view[a:b]` holds exactly the bits of the list slice, for all bounds (negative,
  out of range, left out); reversed bounds raise `AssertionError`.
* `C31_compose` (Props/BitViews.lean): Slices of slices compose as for lists.

### C32 Iterating a BitView yields its bits in groups of eight (proved)

list(view), to_bytes(), view[i] and to_bitstr() all present the same bit sequence: byte i consists of bits 8i..8i+7 of
the view, the last byte being zero-extended.

*Modelled:* Buffer/BitView.lean

*Proved by:* bitwise extensionality; induction over the number of bytes.

* `C32_to_bytes` (Props/BitViews.lean): iterating (or `to_bytes`) gives `ceil(length)` bytes whose bits are the bits
  of the view, zero-extended.
* `C32_index` (Props/BitViews.lean): `view[k]` is the byte of the (at most eight) bits from offset `k` on.
* `C32_to_bitstr` (Props/BitViews.lean): `to_bitstr` lists the same bits, highest first.

### C33 Assigning a same-length bit range overwrites exactly that range (proved)

buf[a:b] = view with len(view) = b-a replaces bits a..b by the bits of view, and changes neither other bits nor the
length.

*Modelled:* Buffer/BitView.lean (`_set_range`, `_copy_to_range`, `_set_byte_bits`)

*Proved by:* bitwise: bits of the range are those of the value, all others unchanged; induction over the copied bytes.

* `C33_overwrite` (Props/BitViews.lean): `buf[a:b] = view` with a view as long as the range replaces exactly those
  bits: the others, the length and the rest of the underlying buffer stay as they were.
* `C33_overwrite_bytes` (Props/BitViews.lean): C33 for byte strings.

### C34 Concatenation of bit arrays (partial)

a + b and a += b contain the bits of a followed by the bits of b for any fractional lengths; a + b leaves both
operands unchanged.

*Modelled:* Buffer/BitView.lean (`extend`)

*Proved by:* C33 after `_insert_zeros` at the end; aliasing modelled for `a += a`.

*Result:* Any two distinct arrays; a += a (the same object) raises IndexError (refuted).

* `C34_concat` (Props/BitViews.lean): `a.extend(b)`, `a += b` and `a + b` hold the bits of `a` followed by those of
  `b`, whatever the alignments; and concatenation is associative.
* `C34_self_refuted` (Props/BitViews.lean): C34 is violated by `a += a`: `IndexError`, because the length of the
  operand has meanwhile doubled.
* `C34_self_partial` (Props/SelfExtend.lean): C34, `a += a`, exactly: if the buffer happens to have room for the
  operand once more behind the result, the bits of `a` are doubled as they should be; in all other cases `IndexError`
  is raised.
* `C34_self_bytes_refuted` (Props/SelfExtend.lean): … but no whole number of bytes does, other than none, if the
  buffer ends where the array does.

### C35 Assigning a longer value splices it in (list semantics) (partial)

buf[a:b] = view with len(view) > b-a gives bits[:a] + bits(view) + bits[b:]; insert(i, view) gives bits[:i] +
bits(view) + bits[i:].

*Modelled:* Buffer/BitView.lean (`_insert_zeros`)

*Proved by:* list semantics on bits; the shift loop is characterised bit by bit; refutation by computation.
Props/InsertExact.lean turns the condition into an equivalence: a witness with one bit set for every bad shape.

*Result:* Characterised exactly: insertion is right for all arrays of a shape if and only if the shape satisfies a
condition on the fractions (C35_exact, C35_splice_exact); it holds at the end and at byte boundaries of whole-byte
arrays, and is refuted elsewhere.

* `C35_insert_partial` (Props/BitViews.lean): C35 (partial): `insert(i, view)` gives `bits[:i] + view + bits[i:]` at
  good positions. Missing: the other positions, where bits are lost (`C35_insert_refuted`).
* `C35_splice_partial` (Props/BitViews.lean): C35 (partial): assigning a longer value to a range gives `bits[:a] +
  view + bits[b:]` if the surplus can be inserted at `b`.
* `C35_insert_refuted` (Props/BitViews.lean): C35 is violated: inserting one bit at bit 2 of a three-byte array loses
  bits.
* `C35_exact` (Props/InsertExact.lean): inserting gives `bits[:i] + view + bits[i:]` for all arrays of a shape and all
  views of a length if and only if the position is good.
* `C35_splice_exact` (Props/InsertExact.lean): assigning a value that is longer than the range gives `bits[:a] + view
  + bits[b:]` for all arrays of a shape and all views of a length if and only if the surplus can be inserted at `b`.

### C36 Deleting a bit range removes exactly those bits (partial)

del buf[a:b] leaves bits[:a] + bits[b:]; assigning a shorter value leaves bits[:a] + value + bits[b:].

*Modelled:* Buffer/BitView.lean (`_del_range`)

*Proved by:* list semantics on bits; `C36_room` says exactly when the shift loop runs out of the array.

*Result:* Exact: either the list semantics or IndexError, and which of the two is characterised; the IndexError case
is the refutation.

* `C36_delete_partial` (Props/BitViews.lean): C36 (partial): `del buf[a:b]` either leaves exactly `bits[:a] +
  bits[b:]`, or raises `IndexError`; which of the two is determined by `DelRoom`. Missing: the `IndexError` case, see
  `C36_delete_refuted`.
* `C36_room` (Props/BitViews.lean): Room is guaranteed if the range starts on a byte boundary, reaches the end, or the
  buffer has a spare byte.
* `C36_shrink_partial` (Props/BitViews.lean): C36 (partial): assigning a shorter value leaves `bits[:a] + value +
  bits[b:]`, under the same condition.
* `C36_delete_refuted` (Props/BitViews.lean): C36 is violated: deleting bits 3..5 of a one-byte array raises
  `IndexError`.

### C37 zfill appends zero bits (partial)

zfill(n) leaves the existing bits unchanged and appends zero bits until the length is at least n; it never shortens.

*Modelled:* Buffer/BitView.lean (`zfill`)

*Proved by:* as C35 at the end of the array. Exact appended bits in Props/InsertExact.lean.

*Result:* Existing bits and length in all cases; the appended bits are computed exactly (C37_bits) and are all zero if
and only if a condition on the fractions holds (C37_exact); refuted otherwise.

* `C37_zfill_partial` (Props/BitViews.lean): C37 (partial): `zfill(n)` keeps the bits and sets the length to `max
  length n`; the new bits are zero if the buffer holds no stray bits after its end and (a) the end is on a byte
  boundary, (b) the new end is at a lower bit of its byte than the old end, or (c) at most one further byte is begun.
  Missing: other cases, see `C37_zfill_refuted`.
* `C37_zfill_refuted` (Props/BitViews.lean): C37 is violated: growing the four bits `1111` to two and a half bytes
  copies them into the new area.
* `C37_bits` (Props/InsertExact.lean): the bits that `zfill(n)` appends, exactly, for a buffer without bits set behind
  the end. Unless the end is on a byte boundary, the new end is at a lower bit of its byte, or at most one further
  byte is begun, the last eight bits before the end (all, if there are fewer) are repeated in the new area, from the
  bit of the old end's byte at which the new end stands in its own.
* `C37_exact` (Props/InsertExact.lean): `zfill(n)` appends zeros to all arrays of a shape whose buffers have no bits
  set behind the end, if and only if the end is on a byte boundary, the new end is at a lower bit of its byte than the
  old one, or at most one further byte is begun.

### C38 Overlap detection is exact (partial)

SequentialRangeList.has_overlaps() is true iff two of the ranges share a bit, whatever the order of the list,
including open ranges.

*Modelled:* Buffer/Range.lean

*Proved by:* pairwise disjointness against adjacent overlaps in any sorted permutation. Lists with empty ranges, where
the order is not total, in Props/RangesExact.lean.

*Result:* Exact for lists without empty ranges, and (with 'starts inside' for 'shares a bit') unless an empty range
lies at an end of a non-empty one; a true answer is always justified (C38_sound). Both directions of the full
statement are refuted: an empty range inside another is reported, and an empty range at the end of another hides a
real overlap.

* `C38_any_sort_partial` (Props/Ranges.lean): C38, for any sorting algorithm that returns a permutation without
  adjacent inversions.
* `C38_has_overlaps_partial` (Props/Ranges.lean): C38 (partial): for non-empty ranges below `sys.maxsize`,
  `has_overlaps` is true iff two of them share a position, whatever their order, open ranges included. Missing: empty
  ranges, see `C38_empty_refuted`.
* `C38_empty_refuted` (Props/Ranges.lean): C38 is violated by an empty range inside another: `[0,10)` and `[5,5)`
  share nothing.
* `C38_sound_any_sort` (Props/RangesExact.lean): whatever the ranges, empty ones included, `has_overlaps` returns, and
  if it says that there is an overlap then one of the ranges starts inside another. For any sorting algorithm.
* `C38_sound` (Props/RangesExact.lean): `has_overlaps` is true only if one of the ranges starts inside another.
* `C38_empty_any_sort_partial` (Props/RangesExact.lean): C38 (partial), with empty ranges: unless an empty range lies
  exactly at an end of a non-empty one, `has_overlaps` is true iff one of the ranges starts inside another. For any
  sorting algorithm that leaves no adjacent inversion. Missing: empty ranges at the ends of others, see
  `C38_missed_refuted`.
* `C38_empty_partial` (Props/RangesExact.lean): C38 (partial), with empty ranges, see `C38_empty_any_sort_partial`.
* `C38_missed_refuted` (Props/RangesExact.lean): C38 is violated in this direction as well: `[3:4], [5:5], [0:5]`
  (bytes) is accepted although `[0:5]` contains `[3:4]`, because the empty range between them is not comparable with
  `[0:5]`.

### C39 Range list arithmetic (proved)

byte_length is the number of selected bits /8 (None iff a range is open), max_stop the least upper bound of the
ranges, contains/overlaps agree with the set of positions, and byte_offset(n) is the position just after the n-th
selected unit.

*Modelled:* Buffer/Range.lean

*Proved by:* sets of bit positions as the specification.

* `C39_byte_length` (Props/Ranges.lean): C39 (`byte_length`): None iff some range is open, else the number of selected
  positions.
* `C39_max_stop` (Props/Ranges.lean): C39 (`max_stop`): None iff some range is open, else the least upper bound of the
  stops (0 for the empty list).
* `C39_contains` (Props/Ranges.lean): C39 (`contains`).
* `C39_overlaps` (Props/Ranges.lean): C39 (`overlaps`): for non-empty ranges, symmetric and true iff a position is
  shared.
* `C39_byte_offset` (Props/Ranges.lean): C39 (`byte_offset`, closed lists): just after the `n`-th selected position;
  `n` beyond the length raises.
* `C39_byte_offset_open` (Props/Ranges.lean): C39 (`byte_offset`, open lists): offsets past the closed ranges continue
  in the open one.
* `C39_make` (Props/Ranges.lean): C39 (construction): exactly the non-negative ordered bounds are accepted.

### C40 bits[i] and bits[i:j] select the i-th..j-th bits of the parent range (partial)

bytes_ref[...].bits[i:j] denotes exactly bits i..j-1 of the concatenated parent ranges, and anything outside the
parent range is rejected with ValueError.

*Modelled:* Buffer/BitRange.lean

*Proved by:* the i-th position of the concatenated ranges as the specification; refutations by computation. Exact
result over several ranges in Props/BitRangesExact.lean.

*Result:* Exact for bits and prefix slices over any number of ranges: bits[i+1] is the position after bit i and later
ranges lose as many bits as were skipped (C40_numeric_exact, C40_slice_exact, C40_slice_outside); the stated property
is refuted for the first bit of a further range and for offsets past the end.

* `C40_numeric_partial` (Props/BitRanges.lean): C40 (partial): `bits[i]` denotes the `i`-th bit of the parent ranges,
  if that bit lies inside a range and not just after the end of an earlier one. Missing: the first bit of every
  further range (`C40_boundary_refuted`) and offsets past the end (`C40_outside_refuted`).
* `C40_slice_partial` (Props/BitRanges.lean): C40 (partial): `bits[i:j]` inside one range denotes exactly the bits
  `i..j-1`.
* `C40_prefix_partial` (Props/BitRanges.lean): C40 (partial): slices from bit 0 on may span any number of ranges, and
  are rejected with `ValueError` if too long. Missing: slices from another bit on that cross into a further range
  (`C40_boundary_refuted`).
* `C40_boundary_refuted` (Props/BitRanges.lean): C40 is violated at the border of two ranges: `bytes_ref[1,
  5].bits[8]` is bit 0 of byte 2 instead of byte 5.
* `C40_outside_refuted` (Props/BitRanges.lean): C40 is violated just past the end: `bytes_ref[3].bits[8]` is accepted
  and denotes bit 0 of byte 4; further out the error is `TypeError`.
* `C40_numeric_exact` (Props/BitRangesExact.lean): `bits[0]` is the bit at the beginning of the first range,
  `bits[i+1]` is the bit that follows bit `i` of the ranges in the input; behind the end but one bit the exception is
  `TypeError`.
* `C40_slice_exact` (Props/BitRangesExact.lean): `bits[i+1:i+1+n]`, exactly. Let the range `r` contain bit `i` and `d`
  be the number of its bits up to and including bit `i`. The slice takes `n` bits from the rest of `r` and from the
  ranges after it, each *without its first `d` bits*. If there are too few, the exception is `ValueError`; if a range
  with less than `d` bits comes before there are enough, it is `AssertionError`.
* `C40_slice_outside` (Props/BitRangesExact.lean): Behind the end of all ranges: `TypeError`.

### C41 Input gather and output scatter are inverse (partial)

OutputBuffer.set(value, ranges) followed by InputBuffer.get(ranges) on the result returns the written bits, for any
list of disjoint ranges in any order; positions outside the ranges are unchanged (or zero when the buffer grows); a
value shorter than the ranges raises ValueError.

*Modelled:* Buffer/IOBuffer.lean

*Proved by:* bitwise; induction over the ranges. Exact contents of the gaps in Props/ScatterExact.lean.

*Result:* Gather, scatter-then-gather, untouched positions and the ValueError in full; zero gaps exactly under a
condition on the alignment (C41_exact, an equivalence for ranges that follow each other); the contents of every bit,
gaps included, for any closed ranges (C41_bits); the stated property is refuted.

* `C41_gather` (Props/Scatter.lean): C41, input half: `InputBuffer.get(ranges)` is the concatenation of the bits at
  the positions of the ranges, for any list of closed ranges inside the input, in any order.
* `C41_scatter_partial` (Props/Scatter.lean): C41 (partial): `OutputBuffer.set(value, ranges)` with disjoint ranges in
  any order succeeds if the value is long enough; then `InputBuffer.get(ranges)` returns the bits written, positions
  outside the ranges keep their bits, and the new positions in between are zero if every gap starts or ends suitably
  (`GapsClean`; e.g. on byte boundaries). Missing: zero gaps in general, see `C41_gap_refuted`.
* `C41_short` (Props/Scatter.lean): a value shorter than the ranges raises `ValueError`.
* `C41_gap_refuted` (Props/Scatter.lean): C41 is violated: with four bits `1111` in the buffer, writing bits 20..24
  fills bits 4..8 with ones.
* `C41_bits` (Props/ScatterExact.lean): what `OutputBuffer.set` leaves in the buffer, bit by bit, for any list of
  closed ranges, overlapping ones included.
* `C41_exact` (Props/ScatterExact.lean): writing ranges that follow each other leaves zeros in all gaps, for all
  buffers of a length and all values of a length, if and only if every gap begins on a byte boundary, ends at a lower
  bit of its byte than it begins, or begins at most one further byte.
* `C41_gather_short` (Props/Used.lean): `InputBuffer.get(ranges)` for any closed ranges: the bits of the input at the
  positions that exist, in order. Positions beyond the end are left out without an error.

### C42 Buffer.pack lays out every field at its position and zeros elsewhere (partial)

For a Buffer class with static positions, bit p of pack() is the corresponding bit of the packed value of the last
field (in field order) covering p, and zero if no packed field covers p.

*Modelled:* Buffer/Class.lean, Buffer/Engine.lean, Buffer/IOBuffer.lean

*Proved by:* invariant over the pack loop: each bit of the output is that of the last field covering it. Exact, gaps
included, in Props/ScatterExact.lean.

*Result:* Every bit of pack() is that of the last field covering it, zero elsewhere, for static positions whose
written gaps are clean; refuted when a partly covered byte of a later field is grown over earlier ones (the gap keeps
non-zero bits); every bit including those gaps is described by C42_bits.

* `C42_layout_partial` (Props/Pack.lean): C42 (partial): in a class whose fields are at static positions `L i`, a
  successful `pack()` consists of the packed values `x` of the fields that are packed (whose `pack_if` holds), and
  these are the packed values of the attributes of the object; bit `p` of the output is the bit of the last packed
  field covering `p`, and zero where there is none if the gaps between the positions are unproblematic (`LayoutClean`;
  for instance if they end at byte boundaries). The object is left as it was. Missing: zeros in all gaps, see
  `C42_gap_refuted`.
* `C42_gap_refuted` (Props/Pack.lean): C42 is violated: with `a = 15`, `b = 10` in `gapClass`, the unused upper half
  of byte 0 comes out as ones.
* `C42_bits` (Props/ScatterExact.lean): the bits of a packed object, exactly, the gaps between the fields included:
  the packed values `x` of the fields that are packed, written one after the other to their positions as `C41_bits`
  says.

### C43 Buffer round-trip (partial)

For a Buffer class whose fields occupy disjoint static positions, unpack(pack(obj)) restores every field, also when
the packed bytes are followed by other data.

*Modelled:* Buffer/Class.lean, Buffer/Engine.lean, Buffer/IOBuffer.lean, Buffer/Serialize.lean

*Proved by:* C41 and C42 give the bits back to every field; codecs by C45-C51; induction over the depth of nesting.

*Result:* Proved for classes whose positions are fixed and disjoint and whose fields are ints, bit ints, 4-byte
floats, stripped strings, bytearrays, nested Buffers and lists of them, at any depth of nesting: unpacking any input
that starts with the packed bytes gives the same attributes. C43_choice_partial adds fields and lists whose class is
chosen by a function that reads other fields. Classes whose positions depend on other fields are the subject of C56
and of the general theorem round_trip. Refuted as stated: an 8-byte float packs but cannot be unpacked, and a list of
strings is unpacked to its first item alone (C43_strings_refuted, C51_strings).

* `C43_choice_partial` (Props/Choose.lean): C43 for fields whose class is selected by a function (partial): an object
  of a class whose fields occupy disjoint static positions `L i` and hold values that fit them is packed, and
  unpacking any input that starts with the packed bytes into an object `b` restores every field and changes no other
  attribute. A selector may look at fields in order (`FlatChoice`); it has to choose the class of the value when
  called with any object that has the fields of `a`, and the other attributes of `b`. Missing: 8-byte floats, see
  `C43_refuted`; selectors that return a value instead of a class; selectors that look at fields out of order, see
  `C77_refuted`.
* `C43_choice_nested_partial` (Props/Choose.lean): C43 for objects with selectors inside others (partial): such an
  object, with the attributes of its class otherwise, is a value that fits a `buffer_field` or an item of a list, so
  `C43_partial` and `C43_choice_partial` apply to the object that contains it.
* `C43_partial` (Props/Flat.lean): C43 (partial): an object of a class whose fields occupy disjoint static positions
  `L i` and hold values that fit them is packed, and unpacking any input that starts with the packed bytes, into any
  object `b`, restores every field and changes no other attribute. Missing: 8-byte floats, see `C43_refuted`; fields
  whose type is selected by a function, see `C43_choice_partial`; lists of strings, see `C43_strings_refuted`.
* `C43_nested_partial` (Props/Flat.lean): C43 for objects inside others (partial): an object whose fields are at
  disjoint static positions and hold values that fit, and that has the attributes of its class otherwise, is a value
  that fits a `buffer_field` (`Fits.buffer`) or an item of a list (`ItemFits.buffer`) — so `C43_partial` applies to
  the object that contains it, at any depth.
* `C43_refuted` (Props/Flat.lean): C43 is violated by 8-byte floats: they are packed, but unpacking them raises.
* `C43_strings_refuted` (Props/Items.lean): C43 is violated by lists of strings: `['ab', 'cd']` is packed to `abcd`,
  which is unpacked to `['ab']`.

### C44 Packed size is the declared/static byte size (partial)

For a class with static positions len(pack()) = ceil(byte_size); a declared byte_size larger than the fields pads with
zeros; a smaller one raises.

*Modelled:* Buffer/Class.lean, Buffer/Engine.lean, Buffer/IOBuffer.lean

*Proved by:* length of the output after every `set`; padding and assertion by cases.

*Result:* Length of pack() for static classes and padding/raising for declared sizes; refuted for a declared byte_size
of 0, which is not checked.

* `C44_static` (Props/Pack.lean): C44 for the size found by the metaclass: `len(pack())` is `byte_size` rounded up,
  and the size check never fails.
* `C44_declared_partial` (Props/Pack.lean): C44 for a declared `byte_size = n / 8 ≠ 0` (partial): if the layers of the
  fields (the packed values at their positions, `FieldLayer`) end within it, `pack` gives exactly that many bytes
  (rounded up), with zeros after the last field; if they do not, `pack` raises an `AssertionError`. Missing: a
  declared size of zero, see `C44_zero_refuted`.
* `C44_zero_refuted` (Props/Pack.lean): C44 is violated: with `byte_size = 0` declared, `pack` returns the bytes of
  the fields all the same.

### C45 Integer buffer fields of 1, 2, 4 or 8 bytes honour sign and endianness (partial)

int/uint/be/le fields of 1/2/4/8 bytes pack the two's complement representation in the declared byte order, reject
out-of-range integers and short buffers, and round-trip.

*Modelled:* Buffer/Serialize.lean

*Proved by:* digits as in C02.

*Result:* Packing and unpacking of 1/2/4/8-byte integers for every value and byte order; the 4-byte case without an
endian declaration depends on the platform's C long (refuted).

* `C45_pack_partial` (Props/Serialize.lean): a signed/unsigned integer in range packs to its two's complement
  representation of exactly `n` bytes in the declared byte order; everything else raises `struct.error`. Missing:
  `endian='unspecified'` for 4 bytes where C's `long` is longer (`C45_unspecified_refuted`).
* `C45_unpack_partial` (Props/Serialize.lean): unpacking a view that starts with the representation of `i` returns `i`
  and the size, whatever follows; a view of fewer than `n` bytes is rejected.
* `C45_unspecified_refuted` (Props/Serialize.lean): C45 is violated for `endian='unspecified'`: on a host with 8-byte
  `long` a 4-byte field packs 8 bytes (so that unpacking its 4 bytes raises `AssertionError`).

### C46 Integer buffer fields of any other width round-trip (partial)

An int field of w bits (w not 8/16/32/64) round-trips every integer it accepts, rejects integers that do not fit, and
honours sign and endianness.

*Modelled:* Buffer/Serialize.lean

*Proved by:* bits of the number as in C33; refutations by computation.

*Result:* Non-negative integers of other widths on a buffer with enough bits; negative numbers, short buffers and big-
endian declarations are refuted. C46_exact gives the packed bits of every integer at every width, C46_unpack what any
buffer unpacks to, and C46_round_trip that a round trip succeeds exactly for the non-negative integers that fit.

* `C46_exact` (Props/BitInts.lean): what a field of `w` bits makes of any integer, exactly. If its absolute value has
  more than `w` digits, `pack` raises `ValueError`. Otherwise the lowest bits, up to the end of the bytes that its
  digits take, are those of its two's complement, and the bits behind them are zero.
* `C46_unpack` (Props/BitInts.lean): unpacking never fails, whatever the length of the input: the number whose digits
  are the first `w` bits, or all if there are fewer.
* `C46_round_trip` (Props/BitInts.lean): which integers come back. What is packed is unpacked modulo 2 to the number
  of bits in the bytes that its digits take, so exactly the numbers that are not negative round-trip; the declared
  byte order and sign make no difference.
* `C46_bool` (Props/Details.lean): `True` and `False` pack like 1 and 0, at any size.
* `C46_pack_partial` (Props/Serialize.lean): C46 (partial): a field of `w` bits packs every `0 ≤ x < 2^w` as its
  binary digits, lowest bit first, and raises `ValueError` for larger numbers. Missing: negative numbers
  (`C46_negative_refuted`), byte order (`C46_endian_refuted`).
* `C46_unpack_partial` (Props/Serialize.lean): C46 (partial): unpacking returns the number with those digits, so what
  was packed is unpacked, whatever follows.
* `C46_negative_refuted` (Props/Serialize.lean): C46 is violated for negative numbers: `-1` in a 12-bit field packs as
  `0x0ff` and unpacks as 255.
* `C46_short_refuted` (Props/Serialize.lean): C46 is violated for truncated input: one byte is accepted for a 3-byte
  field.
* `C46_endian_refuted` (Props/Serialize.lean): C46 is violated for the byte order: a big-endian 3-byte field packs 1
  as `01 00 00`.

### C47 Unpacking a truncated buffer raises (partial)

Buffer.unpack raises when the input is shorter than the positions of a field.

*Modelled:* Buffer/Serialize.lean, Buffer/IOBuffer.lean

*Proved by:* the gathered value is shorter than the codec demands; refutations by computation.

*Result:* Proved for integers of struct widths, floats and fixed byte sizes of text when at least one whole byte of
the place lies beyond the end (C47_bytes_partial: any byte-aligned place). Refuted: gathering silently leaves out what
is missing, so bytearrays and integers of other widths are read short without an error.

* `C47_partial` (Props/Used.lean): C47 (partial): a field that is unpacked as an integer of 1, 2, 4 or 8 bytes, a
  float or a string, at any (even scattered) positions of `n` bytes of which the input has less than `n - 1` bytes and
  one bit, makes `unpack` fail. Missing: see `C47_refuted`.
* `C47_bytes_partial` (Props/Used.lean): C47 (partial), whole bytes: such a field at whole bytes, some of which lie
  beyond the end of the input.
* `C47_refuted` (Props/Used.lean): A short `bytearray` field and a short 3-byte integer are read as if they were
  complete.

### C48 Float buffer fields round-trip (partial)

float_field of 4 and 8 bytes packs and unpacks the IEEE representation in the declared byte order.

*Modelled:* Buffer/Serialize.lean

*Proved by:* as C04; refutation by computation.

*Result:* 4-byte floats in full; 8-byte floats never unpack (refuted).

* `C48_float_partial` (Props/Serialize.lean): C48 (partial): a representable float packs to its IEEE pattern in the
  declared byte order; 4-byte fields unpack it again, whatever follows, and reject short input. Missing: unpacking 8
  bytes, which never works (`C48_double_refuted`).
* `C48_double_refuted` (Props/Serialize.lean): C48 is violated: unpacking an 8-byte float field always raises
  `AssertionError`.

### C49 String buffer fields pad on pack and strip on unpack (proved)

str_field packs to exactly its size (left/right/center justified) and unpacking returns the string, for every string
that fits and does not begin/end with a padding or strip character on the padded side.

*Modelled:* Buffer/Serialize.lean

*Proved by:* justify and strip laws for every encoding.

* `C49_str` (Props/Serialize.lean): a string whose encoding `b` fits and does not begin/end with a padding or strip
  byte on a padded side packs to exactly `n` bytes that contain `b`, and unpacking any view that starts with them (of
  at least `n` bytes) returns the string (and the length of the view as the size used).
* `C49_ascii` (Props/Serialize.lean): `ascii` meets the hypotheses of `C49_str` for every string of code points below
  128.

### C50 bytearray fields are transported verbatim (partial)

bytearray_field returns exactly the bytes at its position, and round-trips; a value shorter than a closed position
raises; bits outside the position are not disclosed.

*Modelled:* Buffer/Serialize.lean, Buffer/BitView.lean

*Proved by:* bitwise.

*Result:* Whole bytes at any bit alignment; positions that end inside a byte are refuted. C50_exact gives the bits of
any byte array at any positions, C50_pure when they are the bytes given.

* `C50_exact` (Props/BitInts.lean): what a byte array is unpacked to, exactly: as many bytes as are begun, and behind
  the last bit of the position zeros if the position begins inside a byte, and otherwise the bits that follow in the
  input.
* `C50_pure` (Props/BitInts.lean): a byte array holds just the bits of its position, padded with zeros, if and only if
  the position begins inside a byte or no bit is set between its end and the end of its last byte.
* `C50_bytes_partial` (Props/Serialize.lean): C50 (partial): a byte string packs to itself, and a view of whole bytes
  unpacks to exactly those bytes, at any bit alignment. Missing: positions that end inside a byte
  (`C50_fraction_refuted`).
* `C50_fraction_refuted` (Props/Serialize.lean): C50 is violated by a position of 4 bits: the other 4 bits of the byte
  are returned, too.

### C51 List buffer fields round-trip (proved)

unpack_list(pack_list(xs)) returns xs for fixed-width integer and nested-buffer elements, with n given or not, and n
limits the number of elements.

*Modelled:* Buffer/Serialize.lean

*Proved by:* induction over the list for any element codec with a round trip.

* `C51_strings` (Props/Items.lean): C51, lists of strings: `unpack_str` says that it used the whole rest of the input,
  whatever the size of the string. So a list field of strings unpacks to its first item alone, if it unpacks at all.
* `C51_selector_none` (Props/Refusals.lean): a list whose selector returns `None` takes no bytes for its items. With a
  number of items these are all `None`, and nothing is consumed; without one the loop never ends.
* `C51_pack` (Props/Serialize.lean): see the file.
* `C51_unpack` (Props/Serialize.lean): unpacking a view that shows the packed items returns the list and the number of
  bits used; with `n` given, data may follow. The elements may be anything that is unpacked from its own (non-empty)
  bits; the unpacker may use the number of the item and the items before it.
* `C51_ints` (Props/Serialize.lean): C51 for lists of 1/2/4/8-byte integers.
* `C51_limit` (Props/Serialize.lean): C51, `n`: at most `n` items are unpacked.
* `C51_terminates` (Props/Serialize.lean): C51/C52: `unpack_list` terminates if no item of size zero is met, or if the
  number of items is given.
* `C51_zero_diverges` (Props/Serialize.lean): Without a count, items of size zero are read for ever (as long as the
  buffer is not empty), also if they differ.
* `C51_zero_then` (Props/Serialize.lean): without a count, items of size zero are all kept, and the unpacker is called
  again at the same place until an item has another size: here the first `k` items are empty and the next has all the
  bits. So whether `unpack` returns depends on what the unpacker makes of the number of the item.

### C52 Unpacking terminates on every input (partial)

Buffer.unpack returns or raises on every finite input for every class.

*Modelled:* Buffer/Class.lean, Buffer/Engine.lean, Buffer/IOBuffer.lean, Buffer/Serialize.lean

*Proved by:* fuel bound for dereferencing (C54); the list loop either consumes input or ends.

*Result:* Every dereference ends within the depth of the class (C52_depth); unpack ends for classes whose lists are
counted or have elements of non-zero size, also through nested buffers. Refuted for an uncounted list of elements that
use no input: the loop never ends.

* `C52_depth` (Props/Termination.lean): the depth that the model gives to dereferences suffices for every class,
  context and object, cyclic or not: `Err.recursion` never is the answer for want of depth. (Python's own recursion
  limit is not modelled.)
* `C52_unpack_partial` (Props/Termination.lean): C52 for one class: `unpack` returns or raises an ordinary exception,
  whatever the input and the object, if the functions given by the user and the unpackers of its fields do; if the
  class has a size, that is what it returns. Missing: lists without count of elements of size zero (`C52_refuted`).
* `C52_nested_partial` (Props/Termination.lean): C52 for a whole program: in a table of classes that do not contain
  themselves, with functions that return or raise and without uncounted lists of possibly empty elements, unpacking
  any bytes as any class returns or raises an ordinary exception, and a class that has a size takes just that.
  Missing: such lists (`C52_refuted`); classes that contain themselves through a selector (there Python's recursion
  limit, which is not modelled, is what stops it).
* `C52_refuted` (Props/Termination.lean): C52 fails: unpacking one byte as a list of empty buffers never ends.

### C53 References are evaluated at most once per context and the cached value is returned (proved)

Within one pack/unpack, however often and from wherever a reference is dereferenced, its evaluation completes at most
once and every dereference returns that same value.

*Modelled:* Buffer/Engine.lean

*Proved by:* an invariant over all executions of the evaluation machine: the cache holds the value of the only
evaluation.

* `C53_once` (Props/References.lean): within one context, however often and in whatever order references are
  dereferenced (some of them failing), every reference completes its evaluation at most once – each completion leaves
  an entry in `cached_results`, and these have distinct keys – and all successful dereferences of the same reference
  return the same value.
* `C53_cached` (Props/References.lean): dereferencing again returns the cached value and changes nothing at all.
* `C53_calls` (Props/References.lean): see the file.

### C54 Cyclic references are detected, acyclic ones always resolve (proved)

Dereferencing terminates for every finite reference graph; if evaluation needs its own value CyclicReferenceError is
raised; if the graph is acyclic no CyclicReferenceError can occur.

*Modelled:* Buffer/Engine.lean

*Proved by:* the call stack has no repetitions, so its length is bounded by the number of references; a specification
of 'reaches itself' on the dependency relation.

* `C54_terminates` (Props/References.lean): dereferencing terminates for every finite reference graph, from every
  state of the context, with a recursion depth of at most the number of references plus one.
* `C54_acyclic` (Props/References.lean): in an acyclic graph no `CyclicReferenceError` can occur (programs may change
  the object in between).
* `C54_exact` (Props/References.lean): C54/C55, exact: for references that do not touch the object, a dereference with
  no other one in progress and a cache of honest values gives what plain recursive evaluation gives;
  `CyclicReferenceError` is raised if and only if the plain evaluation does not end. The cache stays honest whatever
  happens.
* `C54_cycle` (Props/References.lean): if the evaluation of `k` needs the value of `k` itself, `CyclicReferenceError`
  is raised; likewise if it needs a reference that needs itself.

### C55 A failed dereference leaves the context reusable (proved)

After any dereference (successful or raising), the call stack and the set of active nodes are as before, and the cache
only holds values of completed evaluations; so later dereferences are not affected by earlier failures.

*Modelled:* Buffer/Engine.lean

*Proved by:* induction over executions: stack and recorded exception after a failure.

* `C55_context_restored` (Props/References.lean): whatever a dereference does (programs may change the object, raise,
  …), the call stack and the set of active references are afterwards as before, and no cached value is lost or
  replaced.
* `C55_history` (Props/References.lean): the outcome of each dereference in a session is the same as in a fresh
  context, whatever failed before.

### C56 Length-prefixed dynamic buffers round-trip (partial)

A Buffer with a length field set before packing (len_ref / total_size) and a variable-size field positioned by that
length packs the right length and unpacks to the same values.

*Modelled:* Buffer/Class.lean, Buffer/Engine.lean, Buffer/IOBuffer.lean

*Proved by:* the reference graph of the pattern is evaluated symbolically for every payload.

*Result:* C56_general_partial covers any class whose packed fields fit computed places; C56_len_partial and
C56_total_partial are the len_ref and total_size idioms with the exact wire format, C56_bytes the unconditional bytes
payload. Refuted for text whose encoding is longer than its character count: len_ref counts characters and the excess
bytes are dropped without an error.

* `C56_general_partial` (Props/Dynamic.lean): C56, general form (partial): for any class and any object all of whose
  packed fields have values `V i` that fit their places `L i` — static, or computed from other fields, from `len_ref`,
  `total_size` or any other reference — packing succeeds and sets the attributes of the packed fields to `V i`, and
  unpacking any input that starts with the packed bytes restores all of them. Missing: see `C56_text_refuted`.
* `C56_len_partial` (Props/Prefixed.lean): C56 (partial): `size = int_field(where=bytes_ref[0:k],
  set_before_pack=len_ref(self_ref.data))` with `data = …_field(where=bytes_ref[k:k + m * size])`, for any payload `v`
  of `n` items that take `m` bytes each: packing gives the number `n` followed by the packed payload, sets the
  attribute `size` to `n`, and unpacking any input that starts with these bytes gives both back. Missing: see
  `C56_text_refuted`.
* `C56_total_partial` (Props/Prefixed.lean): C56 (partial): `size = int_field(where=bytes_ref[0:k],
  set_before_pack=total_size - k)` with `data = …_field(where_when_pack=bytes_ref[k:], where_when_unpack=bytes_ref[k:k
  + size])`, for any payload of `n` bytes: packing gives the number `n` followed by the packed payload, sets the
  attribute `size` to `n`, and unpacking any input that starts with these bytes gives both back. Missing: see
  `C56_text_refuted`.
* `C56_bytes` (Props/Prefixed.lean): C56 for `bytearray_field`: every payload whose length fits the length field, with
  either way to compute the length.
* `C56_text_refuted` (Props/Prefixed.lean): `len_ref` counts characters and the position counts bytes: `é` is packed
  as one byte, `0xc3`, without an error.

### C57 A subclass's byte_size covers inherited fields (partial)

For a subclass of a Buffer with static positions, byte_size is the extent of all fields, inherited ones included, so
that pack succeeds and unpack reports the bytes used.

*Modelled:* Buffer/Class.lean, Buffer/Engine.lean, Buffer/IOBuffer.lean, Buffer/Subclass.lean

*Proved by:* evaluation of `calc_byte_size` over the own fields; consequences for pack and unpack from C44.

*Result:* byte_size of a subclass is the extent of the fields it declares itself (C57_own). Refuted as stated:
inherited fields after them make pack fail and unpack report too little; a subclass without own fields gets byte_size
0. Proved whenever the inherited fields end within the own extent (C57_partial); otherwise pack raises AssertionError
(C57_beyond).

* `C57_own` (Props/Subclass.lean): C57, what the size of a subclass is: the least number of bits within which all
  fields *declared by the class itself* end. The position of each of them is the same for every object.
* `C57_partial` (Props/Subclass.lean): C57 (partial): if the inherited fields end within the size found for the
  subclass, then that size is the extent of all fields, `pack` raises no size error and yields exactly that many bytes
  (rounded up), and `unpack` reports it. Missing: inherited fields that end after all fields of the subclass, see
  `C57_refuted`.
* `C57_beyond` (Props/Subclass.lean): C57, otherwise: if a field (then an inherited one, `C57_own`) ends in a byte
  after the size found, `pack` raises an `AssertionError` for every object for which that field is packed, unless the
  size found is zero.
* `C57_refuted` (Props/Subclass.lean): C57 is violated. A subclass that adds `a = uint8_field(where=bytes_ref[0])` to
  a class with `b = uint8_field(where=bytes_ref[4])` gets `byte_size = 1`; its objects cannot be packed, and `unpack`
  of five bytes reports that one was used. A subclass that adds no field gets `byte_size = 0`; its objects are packed
  as five bytes, and `unpack` reports that none was used.

### C58 unpack returns the number of bytes used (partial)

unpack returns the position just after the last byte used by any unpacked field.

*Modelled:* Buffer/Class.lean, Buffer/Engine.lean, Buffer/IOBuffer.lean

*Proved by:* the returned value is the maximum of the ends of the unpacked fields.

*Result:* The returned size is the largest of the ends of the unpacked fields (C58_exact). It ends some unpacked field
and bounds every field whose ranges ascend (C58_partial); a declared byte_size is returned as is (C58_fixed_partial).
Refuted for a field whose ranges descend: the end of the last range is taken, so input further on is not counted.

* `C58_partial` (Props/Used.lean): C58 (partial): `unpack` of a class without a fixed size returns a position `N` (in
  bits) such that all input used by the unpacked fields lies before `N`, if their places are in ascending order, and
  `N` is the end of one of them (or 0). Missing: see `C58_refuted`.
* `C58_exact` (Props/Used.lean): C58, exactly: the size that `unpack` of a class without a fixed size returns is the
  largest of the ends of the unpacked fields (`EndsAt`: the end of what the field used of the range in which it
  stopped), and 0 for fields that are not unpacked.
* `C58_fixed_partial` (Props/Used.lean): C58 for a class with a fixed size, computed or declared: `unpack` returns it,
  whatever the fields used.
* `C58_refuted` (Props/Used.lean): The value in bytes 5 and 1: `unpack` returns 2 although byte 5 was used.

### C59 The Buffer-to-Struct adapter behaves like the Buffer (partial)

For a fixed-size Buffer, adapter.create_from_stream reads exactly byte_size bytes and equals unpack of them;
write_to_stream writes pack(); sizeof equals the number of bytes written.

*Modelled:* Buffer/Compat.lean

*Proved by:* composition of C43/C44 with the stream model; refutation at float sizes.

*Result:* Reading, writing and sizeof proved for int byte_size. Refuted as stated: byte_size is a float when the last
field ends with a bit range, and BytesIO.read raises TypeError then.

* `C59_read_partial` (Props/Compat.lean): C59, reading (partial): for a class whose `byte_size` is the `int` `n`,
  `create_from_stream` is `unpack` of the next `n` bytes of the stream (or of all that are left, if fewer), and leaves
  the stream after exactly these; it succeeds exactly if `unpack` of them does. Missing: sizes that are `float`s, see
  `C59_refuted`.
* `C59_string` (Props/Compat.lean): C59, `create_from_string`: `unpack` of the given bytes.
* `C59_write` (Props/Compat.lean): C59, writing: `write_to_stream` appends what `pack` returns, `write_to_string`
  returns it, and `sizeof` — before or after writing — is the number of bytes written.
* `C59_round_partial` (Props/Compat.lean): C59, both together: for a class whose size `n` is found by the metaclass,
  an object written to a stream is read back from exactly the bytes written, whatever follows them, as if by
  `unpack(pack())`.
* `C59_refuted` (Props/Compat.lean): C59 is violated: if `byte_size` is a `float`, as for a class whose last field
  ends with a bit range, `create_from_stream` raises a `TypeError` for every `BytesIO`, although `unpack` of the same
  bytes succeeds and `write_to_stream` works.
* `C59_type` (Props/Refusals.lean): `create_from_string` refuses everything that is not a byte string, for example a
  `bytearray`, with `TypeError`.

### C60 Conditional buffer fields (partial)

A field whose pack_if is false contributes nothing to the output; a field whose unpack_if is false is set to None and
does not look at the input; other fields are unaffected.

*Modelled:* Buffer/Class.lean, Buffer/Engine.lean, Buffer/IOBuffer.lean

*Proved by:* the pack and unpack loops are shown not to depend on a disabled field.

*Result:* pack: nothing of a disabled field enters the output (C60_pack). unpack: the definition of a disabled field
that nothing refers to has no influence on the outcome and its attribute becomes None. Refuted when another field
refers to the disabled one: it is unpacked after all and its attribute set.

* `C60_unpack_partial` (Props/Conditional.lean): a field whose `unpack_if` is false has no influence on `unpack`: with
  any other definition of that field (another place, type, length, dependencies) that keeps name and condition,
  `unpack` does the same, on every input.
* `C60_none_partial` (Props/Conditional.lean): … and its attribute is `None` afterwards.
* `C60_refuted` (Props/Conditional.lean): A disabled field that another field refers to is unpacked after all, and its
  attribute is set.
* `C60_pack` (Props/Pack.lean): C60 for `pack`: a field whose `pack_if` does not hold contributes nothing: every bit
  of the output belongs to one of the other fields (each at its own position with its own packed value), or is outside
  of all of them; its attribute need not even have a value that can be packed.

### C61 Static position detection is sound (proved)

If a position reference is reported static then it evaluates to the same ranges in every context; evaluation of a non-
static reference never silently succeeds at class-definition time.

*Modelled:* Buffer/Class.lean, Buffer/Engine.lean, Buffer/IOBuffer.lean

*Proved by:* soundness of `isStatic`: dereferencing gives the same value for every object and input.

*Result:* Positions reported static are the same in every context of every object; class byte_size is computed from
them; positions that need the object are never reported static.

* `C61_static` (Props/Static.lean): if a reference is reported static then there is one value that it has in every
  context — packing or unpacking, any object, any input, any earlier dereferences — of every class with these
  references.
* `C61_class_size` (Props/Static.lean): C61 at class-definition time: if the metaclass finds a size for the newly
  declared fields, then every one of them has the same position in every context in which an object of a class with
  these fields is packed, its position for unpacking is also the same in every context, and the size is the end of the
  last byte position (the least bound of all of them).
* `C61_dynamic` (Props/Static.lean): C61, the other way round: a position that depends on the object, the input or the
  mode is never taken for static, and a class with such a field gets no size when it is defined.

### C62 Only numeric references enter arithmetic (partial)

a + b (and the other operators) on references is rejected with TypeError unless both operands are numeric references
or numbers; the value of the resulting reference is what Python's operator gives for the values of the operands.

*Modelled:* Buffer/Operators.lean

*Proved by:* decision logic over all pairs of operands, including Python's method lookup.

*Result:* Values, equality, mixed operands and ranges are characterised for every pair of operands. Refuted as stated:
the check `a and b or c` in the numeric guard lets a non-numeric reference combine with a numeric one, `==` on non-
numeric references falls back to object identity, a numeric reference plus a position makes a position list, and unary
minus of a non-numeric reference returns the NotImplemented object instead of raising.

* `C62_identity` (Props/Details.lean): two references of which none is numeric are compared by identity: `==` is true
  for a reference and itself and for nothing else.
* `C62_arithmetic` (Props/Operators.lean): The operators calculate as Python does, for numbers that are multiples of
  an eighth (positions and sizes in bytes and bits are).
* `C62_negation` (Props/Operators.lean): Unary minus of a number.
* `C62_none` (Props/Operators.lean): The value of a field that is not there, `None`, in an expression: it equals
  itself and nothing else, and any other operator on it raises `TypeError`, whatever the other operand is and on
  whichever side it stands.
* `C62_value` (Props/Operators.lean): Whatever expression an operator makes, its value is the operator applied to the
  values of the operands, in that order.
* `C62_partial` (Props/Operators.lean): as long as no numeric reference meets a non-numeric one, arithmetic and
  ordering operators make an expression of numeric operands and raise `TypeError` for all others. (`+` of a position
  is another operation, see `C62_ranges`.)
* `C62_equality` (Props/Operators.lean): `==` and `!=` make an expression of numeric operands; otherwise they compare
  identities right away.
* `C62_mixed` (Props/Operators.lean): When a numeric reference meets a non-numeric one, the expression is made all the
  same, except for arithmetic with the numeric reference first and both of the same class.
* `C62_ranges` (Props/Operators.lean): `a + b` of positions is the list of `a` and `b`, in that order; with a
  reference before a position Python makes the list too, whatever the reference is; a position before anything else is
  an error.
* `C62_refuted` (Props/Operators.lean): `str_field + uint_field` makes an expression, and so does a comparison of the
  two; `str_field == 1` is just `False`; `uint_field + bytes_ref[0]` makes a position; and negating a non-numeric
  reference gives the object `NotImplemented` instead of an error.

### C63 Keyword helper laws (proved)

keep_kwargs_partial lets declaration-time keywords win over call-time ones, copy_defaults_and_override_with_kwargs
lets the call win over defaults, copy_and_remove_kwargs removes exactly the named keys.

*Modelled:* Kwargs.lean

*Proved by:* dictionary laws.

* `C63_keep` (Props/Contexts.lean): C63, `keep_kwargs_partial`: the function gets the positional arguments in order
  and, for every keyword, the value given at declaration time if there is one and the value given in the call
  otherwise.
* `C63_keep_nested` (Props/Contexts.lean): C63, nested: the innermost declaration wins.
* `C63_defaults` (Props/Contexts.lean): C63, `copy_defaults_and_override_with_kwargs`: the call wins over the
  defaults.
* `C63_remove` (Props/Contexts.lean): C63, `copy_and_remove_kwargs`: exactly the named keys are removed, the others
  keep their values and their order.
* `C63_fixed` (Props/Contexts.lean): C63, `copy_and_verify_fixed_kwargs`: raises an `AssertionError` exactly if a
  fixed keyword is passed with a value that is not equal to the fixed one; otherwise the result has the passed values
  and the fixed ones.
* `C63_asserts` (Props/Contexts.lean): C63, the checks raise an `AssertionError` exactly if what they check does not
  hold.

### C64 Struct contexts are not shared (proved)

Deriving a writable copy of a context or an updated context never changes the original context, values set explicitly
by the caller win over class context, and lookups of absent keys return the caller's default.

*Modelled:* Kwargs.lean

*Proved by:* a store of dictionaries with identities; invariant over every sequence of operations.

* `C64_copy` (Props/Contexts.lean): C64, `writable_copy`: the copy has the values of the given dictionary and those of
  the context otherwise, in a dictionary of its own; no existing dictionary changes.
* `C64_updated` (Props/Contexts.lean): C64, `get_updated_context`: the values of the caller's context win over those
  of the class (also `struct`), the result has a dictionary of its own, and no existing dictionary changes, neither
  that of the class nor that of the caller's context.
* `C64_get` (Props/Contexts.lean): C64, lookups: the value stored under the key, and the caller's default if there is
  none.
* `C64_write` (Props/Contexts.lean): C64, writing to a context: exactly the given keys change.
* `C64_unchanged` (Props/Contexts.lean): whatever a program does with contexts that it derives from a context (and
  from those, and so on), and with other contexts that do not have the same dictionary, does not change what the
  original context returns; nor does it change the dictionary `_context_` of a class.
* `C64_read_only` (Props/Contexts.lean): a read-only context cannot be written to: there are no such methods
  (`AttributeError`). On a writable one only the removal of a missing key raises.

### C65 Assigning an integer to a bit range (partial)

buf[a:b] = x for an integer x that fits the range sets bits a..b to the binary digits of x and changes nothing else;
an integer with more digits than the range raises ValueError.

*Modelled:* Buffer/BitView.lean (`_value_to_value_and_length`)

*Proved by:* digits of the number as in C33; refutations by computation. Exact effect, two's complement bit by bit, in
Props/IntSlices.lean.

*Result:* Exact effect for all integers (C65_exact); it is the stated one when the digits of the number take as many
bytes as the range; short and negative numbers are refuted.

* `C65_int_partial` (Props/BitViews.lean): C65 (partial): `buf[a:b] = x` for a number with at most `b - a` binary
  digits and as many bytes as the range sets exactly these bits to the digits of `x`; a number with more digits raises
  `ValueError` and changes nothing. Missing: numbers with fewer bytes than the range (`C65_int_refuted`) and negative
  ones (`C65_negative_refuted`).
* `C65_int_refuted` (Props/BitViews.lean): Numbers are not zero-extended to the range: `buf[0:2] = 1` leaves the
  second byte as it was.
* `C65_negative_refuted` (Props/BitViews.lean): Negative numbers spill over the range: `buf[0:0.125] = -1` sets all
  eight bits.
* `C65_exact` (Props/IntSlices.lean): what `buf[a:b] = x` does for an integer, exactly. It raises `ValueError` if `x`
  has more than `b - a` digits (zero has one). Otherwise it sets the bits of the range that belong to the bytes `x`
  takes to those of `x` in two's complement; the other bits of the range stay; and if `x` is negative and takes a part
  of its last byte behind the range, the bits between the range and the end of that byte (of the number or of the
  array, whichever ends first) are set.
* `C65_index` (Props/IntSlices.lean): C65, C33: assigning any value at a number is assigning it to the eight bits that
  begin there (so a longer or shorter value moves what comes after).

### C66 to_bytearray agrees with iteration (partial)

view.to_bytearray() returns the same bytes as list(view), whatever the alignment of the view.

*Modelled:* Buffer/BitView.lean

*Proved by:* bitwise; refutation by computation. Equivalence in Props/IntSlices.lean.

*Result:* Holds if and only if the view does not start on a byte boundary and end inside a byte (C66_exact); the rest
is refuted.

* `C66_to_bytearray_partial` (Props/BitViews.lean): C66 (partial): `to_bytearray` gives the same bytes, unless the
  view starts on a byte boundary and ends inside a byte. Missing: in that case the last byte also shows the bits after
  the view, see `C66_to_bytearray_refuted`.
* `C66_to_bytearray_refuted` (Props/BitViews.lean): C66 is violated: the first four bits of `0xff` come out as `0xff`,
  not `0x0f`.
* `C66_exact` (Props/IntSlices.lean): `to_bytearray()` equals `to_bytes()` exactly if the view begins inside a byte or
  no bit is set between its end and the end of its last byte.

### C67 Packing a Buffer is repeatable (partial)

Packing an object any number of times gives the same bytes each time, and the values stored in fields with
set_before_pack have no influence on them.

*Modelled:* Buffer/Class.lean, Buffer/Deep.lean, Buffer/Engine.lean, Buffer/IOBuffer.lean

*Proved by:* a successful pack leaves attributes whose second pack evaluates to the same bytes; with nested objects:
two runs of the engine on values that differ in set attributes only give the same results.

*Result:* refuted in full: a function that looks at a field which is set later in the same pack sees its old value the
first time (C67_refuted), also when the field belongs to a nested object (C67_nested_refuted). Proved for functions
that look at no attribute that pack() sets, with nested objects as values (C67_repeat) and with what pack() does to
nested objects at any depth (C67_nested_partial); then the bytes are the same in both models (C67_nested_bytes).

* `C67_nested_partial` (Props/Deep.lean): C67 with what `pack()` does to nested objects: if no function looks at an
  attribute that `pack()` sets, be it of the object or of an object in it, the object can be packed any number of
  times, each time with the same bytes or the same exception; in between, the values of these attributes may be
  anything at any depth, also deleted. `pack()` changes no other attribute at any depth. Missing for the full
  statement (`C67_nested_full`): functions that look at attributes which are set in *nested* objects.
* `C67_nested_bytes` (Props/Deep.lean): With such functions the bytes are those that `packObj` gives, which takes
  nested objects for values: what the theorems about `packObj` say of the bytes holds although `pack()` changes nested
  objects on the way.
* `C67_nested_first` (Props/Deep.lean): see the file.
* `C67_nested_second` (Props/Deep.lean): see the file.
* `C67_nested_refuted` (Props/Deep.lean): see the file.
* `C67_refuted` (Props/Deep.lean): C67 is refuted in full: a function sees the old value of a field that is set later.
* `C67_repeat` (Props/Repeat.lean): an object that can be packed can be packed any number of times, each time with the
  same bytes; in between, the values of the fields that are set before packing may be anything, also deleted.

### C68 What a new Buffer instance holds (proved)

Buffer(**kw) gives every field its keyword or else its default and leaves every other attribute as the class has it; a
keyword that names no field raises AssertionError.

*Modelled:* Buffer/Class.lean (`initObj`)

*Proved by:* induction over keywords and over fields.

* `C68_values` (Props/Construct.lean): keyword arguments that all name fields (own or inherited) are accepted, and
  then every attribute is as documented: the value of the keyword; else what the class itself has under that name (a
  subclass may hide an inherited field); else the default of the field of that name, the one of the subclass if it was
  declared again. A keyword that names no field raises `AssertionError`.

### C69 Instances do not share mutable defaults (partial)

Two Buffer instances created without a keyword for a field do not share its default object, so that changing the value
in one does not change the other.

*Modelled:* Buffer/Construct.lean

*Proved by:* references with identity; the default is not copied.

*Result:* Refuted: every instance holds the object that was given as default (C69_shared); list_field(default=[]) is
one list for all instances. Struct fields do copy their defaults (C30_separate). Proved for defaults that cannot be
changed.

* `C69_shared` (Props/Construct.lean): C69, what the code does: every instance made without the keyword holds the very
  object that was given as the default.
* `C69_partial` (Props/Construct.lean): C69 (partial): with a default that cannot be changed nothing is shared.
  Missing: mutable defaults, see `C69_refuted`.
* `C69_refuted` (Props/Construct.lean): C69 is violated: `list_field(default=[])` gives all instances the same list
  (buffer.py:100 does not copy; compare struct/__init__.py:67).

### C70 set_after_unpack sets the attribute (partial)

After a successful unpack, a field with set_after_unpack=g holds g(value read), other references to the field see the
same value, and if g raises, unpack raises.

*Modelled:* Buffer/Class.lean (`unpackValue`), Buffer/Engine.lean

*Proved by:* invariant over the evaluation: no action changes the attribute.

*Result:* Refuted as stated: the function is called and its result is what other references see, but the attribute of
the object is never assigned and keeps its old value (C70_partial says exactly that). A raising function makes unpack
raise (C70_raises).

* `C70_partial` (Props/After.lean): C70 (partial), what the code does: the function has been called with the value
  read from the input; its result is what other references to the field see, but the attribute of the object is left
  as it was before. Missing: the assignment, see `C70_refuted`.
* `C70_raises` (Props/After.lean): if the function raises, `unpack` raises.
* `C70_refuted` (Props/After.lean): C70 is violated.

### C71 calc_byte_size() equals len(pack()) (partial)

obj.calc_byte_size() of an object that can be packed is the number of bytes that obj.pack() returns.

*Modelled:* Buffer/CalcSize.lean, Buffer/Class.lean, Buffer/Engine.lean

*Proved by:* the size reference evaluates to the maximum over all fields, pack writes up to the maximum over the
packed ones.

*Result:* Proved for all classes with a size other than 0, and for classes without inherited fields if all fields are
packed; in the latter without the condition the size is never too small (C71_enough). Refuted in full: for dynamic
classes inherited fields are not counted, fields with a false pack_if are, and if such a field cannot be packed the
call raises.

* `C71_partial` (Props/CalcSize.lean): C71 (partial): this holds for classes without inherited fields and with a size
  that is not declared as zero, if all fields are packed. Missing: inherited fields and fields with a false `pack_if`,
  see `C71_refuted`.
* `C71_static` (Props/CalcSize.lean): C71, classes with a size (declared or found when the class was defined): the
  size is that, and `pack()` gives as many bytes, inherited fields or not.
* `C71_enough` (Props/CalcSize.lean): C71, fields with a false `pack_if`: they count as if they were packed, so the
  size is never too small for a class without inherited fields and without a declared size.
* `C71_refuted` (Props/CalcSize.lean): C71 is violated: inherited fields are not counted, fields that are not packed
  are, and if such a field cannot be packed there is no size at all.

### C72 JSON fields restore their values (partial)

A value packed into a json_field is unpacked to the same value, if json.loads(json.dumps(value)) gives it back.

*Modelled:* Buffer/Serialize.lean (`packJson`, `unpackJson`, with `json` as a parameter)

*Proved by:* reduction to C49; a model of JSON for null, booleans and integers shows that the hypotheses can be met.

*Result:* Proved whenever the JSON text fits in the field (C72_partial; such fields also take part in the class round
trips C43, C44, C54 and C56 through Fits.json and FitsOpen.json). Refuted in full: a longer text is cut off without an
error, 12345 in three bytes comes back as 123.

* `C72_spaces` (Props/Details.lean): white space before and after the text is not handed to `json.loads`.
* `C72_refuted` (Props/Json.lean): C72 is violated: a text that is too long is cut off, and the value changes without
  any error.
* `C72_partial` (Props/Serialize.lean): C72 (partial): a value whose JSON text fits packs to the text and spaces, and
  any view that starts with these bytes unpacks to the value. Missing: values whose text is too long, see
  `C72_refuted`.

### C73 The report of a failed pack or unpack names the chain of references that failed (proved)

The call stack kept for the error report is recorded once, by the first dereference that fails: it lists the
references being evaluated at that moment, outermost first, each asked for by the evaluation of the one before it, and
its last entry is the reference whose own evaluation raised the exception (or asked for a reference already being
evaluated). Successful dereferences leave it alone. When pack fails, the recorded stack starts at the pack_if, value
or position reference of the field that failed, or is empty because storing the bytes failed; when unpack fails, it
starts at one of the references of the field that failed.

*Modelled:* `deref`, `RCtx.recordEx`, `packLoop`, `unpackLoop`

*Proved by:* induction over the depth with `runProg_report`; `Blame` is a separate inductive description of the chain

*Result:* The text of the message (repr of the references) is not modelled. The full claim is proved for the recorded
stack.

* `C73_stack` (Props/Report.lean): a dereference that succeeds records no call stack. The first one that fails records
  the references that were being evaluated when the exception was raised, outermost first: they lead from the
  reference asked for to the one whose own evaluation raised. A stack recorded earlier stays.
* `C73_path` (Props/Report.lean): the path starts with the reference asked for, names no reference twice and none that
  was being evaluated before.
* `C73_pack` (Props/Report.lean): when the loop of `pack` fails, it fails at a field, and the call stack that the
  report shows is the one of the reference of that field which failed, empty when the bytes could not be stored.
* `C73_unpack` (Props/Report.lean): when the loop of `unpack` fails, it fails at a field, and the call stack that the
  report shows is the one of the reference of that field which failed.

### C74 Printing a Struct instance does not fail (partial)

repr(obj) returns a string for every Struct instance the library made or can serialize: a new one, one that was read,
one that can be written.

*Modelled:* Struct/Schema.lean (`Marshal.reprErr`), Struct/Repr.lean

*Proved by:* induction over marshals and nesting depth: what can be written or was read satisfies the formats that
printing applies; absent optional numbers never do.

*Result:* Proved for instances that can be written and for instances that were read, for classes whose optional fields
can print None; refuted for absent optional numbers, floats and arrays (also right after reading) and for new
instances without defaults.

* `C74_int_in_float` (Props/Refusals.lean): a float field that holds an integer prints, as long as the integer is not
  so large that it has no float; then printing raises `OverflowError`.
* `C74_written_partial` (Props/Repr.lean): C74 (partial): an instance that `to_bytes` can serialize can be printed, if
  every class of the schema consists of fields whose marshals write the value (no `ReadPointer` or `ConstReader` as a
  value), whose optional fields have marshals that print `None` and whose bit fields are not empty. Missing: the other
  classes, see the refutations.
* `C74_read_partial` (Props/Repr.lean): C74 (partial): whatever the bytes, an instance that was read can be printed,
  if the classes are as described. Missing: the other classes, see the refutations.
* `C74_absent_optional` (Props/Repr.lean): C74, optional fields: `repr` raises for every instance in which an optional
  number, float, array or selected struct is absent (`None`), although `to_bytes` leaves the field out.
* `C74_new_instance` (Props/Repr.lean): C74, new instances: `repr(cls())` raises if a number, a float, an array or a
  selected struct has no default.
* `C74_optional_refuted` (Props/Repr.lean): C74 is violated by an instance that was just read (a flag, and a number
  that is present only if the flag is set), and that `to_bytes` writes back unchanged: `repr` is a `TypeError`, since
  `'%d' % None` is evaluated for the absent field.
* `C74_new_refuted` (Props/Repr.lean): C74 is violated by new instances: a class with one number and no default.

### C75 Open-ended positions take exactly the rest of the packed value (proved)

When pack succeeds, the packed value of a field whose position ends with an open range is stored completely: the
closed ranges get its first bits in order and the open range all the others, except where a later field overwrites
them. A value shorter than the closed ranges makes pack fail, and so does any value if a further range follows the
open one.

*Modelled:* Buffer/Range.lean, Buffer/Class.lean, Buffer/IOBuffer.lean

*Proved by:* induction over the ranges for closing, then the layers written by pack.

*Result:* Proved for position lists whose ranges are non-empty and below sys.maxsize.

* `C75_complete` (Props/OpenEnd.lean): when `pack` succeeds, the packed value `x` of a field at the closed ranges `A`
  followed by everything from `s` on is stored completely: the first bits go to the ranges `A` in order and all the
  others, however many, to the positions from `s` on (unless a later field overwrites the position). In particular the
  value is at least as long as the ranges `A`.
* `C75_open_last` (Props/OpenEnd.lean): if a further (non-empty) range follows the open one, `pack` raises, whatever
  the value.

### C76 Failures of pack and unpack are reported as InstructBufferError (partial)

Whatever goes wrong while a Buffer is packed or unpacked, the exception that the caller sees is InstructBufferError,
which names the class and the attribute.

*Modelled:* Buffer/Class.lean, Buffer/Engine.lean

*Proved by:* case analysis of the loops on top of the report theorems of C73; witnesses for the unwrapped exceptions.

*Result:* Refuted as stated: an exception raised while pack_if is evaluated is not wrapped, a declared byte_size that
is too small gives AssertionError, and what the calculation of the size raises after unpack is not wrapped. Proved:
these are the only exceptions (C76_pack_partial, C76_unpack_partial), so the claim holds for pack of classes without
conditions and declared size and for unpack of classes with a size.

* `C76_pack_partial` (Props/Errors.lean): an exception raised by `pack` is an `InstructBufferError`, or comes out of
  the `pack_if` of a field as it is, or is the `AssertionError` about a declared size that is too small for the packed
  fields.
* `C76_pack_plain` (Props/Errors.lean): without conditions and without a declared size, everything that `pack` raises
  is an `InstructBufferError`.
* `C76_unpack_partial` (Props/Errors.lean): an exception raised by `unpack` is an `InstructBufferError`, or comes out
  of the calculation of the size after all fields have been unpacked.
* `C76_unpack_sized` (Props/Errors.lean): everything that `unpack` of a class with a size raises is an
  `InstructBufferError`.
* `C76_pack_refuted` (Props/Errors.lean): C76 fails for `pack`: `pack_if=self_ref.flag` on an object without that
  attribute raises `AttributeError`, and fields of 3 bytes in a class with `byte_size = 2` raise `AssertionError`.
* `C76_unpack_refuted` (Props/Errors.lean): C76 fails for `unpack`: the size of a class without fields and with
  `byte_size = None` is the `max` of nothing.

### C77 What an object held before does not matter to unpack (partial)

Unpacking the same input into two objects of a class that agree outside of the fields (for example a new one and one
that was used before) raises the same error or returns the same size, and leaves the same values in all fields.

*Modelled:* Buffer/Class.lean, Buffer/Engine.lean

*Proved by:* two runs of the engine side by side (a relation between the objects that every action keeps), then
induction over the loop of unpack; witnesses for a selector that sees an old value and for set_after_unpack.

*Result:* Refuted as stated: a selector that reads a field named in unpack_after sees the old value if another field
whose name comes first is positioned behind the selected field, and fields with set_after_unpack keep their old value.
Proved (C77_fresh_partial, C77_equal, C77_again) when selectors and member functions do not read fields.

* `C77_fresh_partial` (Props/Stale.lean): C77, as far as it holds: if the member functions and selectors do not look
  at the fields, then two objects that agree outside of the fields are unpacked from the same input alike. Either the
  same error is raised, or the same size is returned and all attributes agree afterwards, except that a field with
  `set_after_unpack` may have kept what it held before in each of them.
* `C77_equal` (Props/Stale.lean): C77 for classes without `set_after_unpack`: unpacking any two objects that agree
  outside of the fields gives the same.
* `C77_again` (Props/Stale.lean): Unpacking the same object a second time gives the same as the first time, also from
  a new object.
* `C77_three_ways` (Props/Stale.lean): The input `01 aa bb cc` is unpacked in three ways, depending on what `t` was
  before.
* `C77_refuted` (Props/Stale.lean): C77 is violated in general: a selector that reads a field named in `unpack_after`
  sees what the object held before, if another field whose name comes first is positioned behind the selected one.
* `C77_kept_refuted` (Props/Stale.lean): The exception in `C77_fresh_partial` is there: the old value of a field with
  `set_after_unpack` stays.

### C78 Unpacking depends on the bits of the input only (partial)

Unpacking two inputs that hold the same bits gives the same object and size or raises the same error, wherever these
bits lie: neither the offset of the input in a larger buffer, nor the bit of a byte at which it begins, nor what
surrounds it matters, also for nested buffers and lists.

*Modelled:* Buffer/Class.lean, Buffer/IOBuffer.lean, Props/Surround.lean

*Proved by:* simulation: two runs of the engine whose contexts differ only in the parts of the input, for any relation
between views that slicing preserves and the unpackers cannot see; induction on the nesting.

*Result:* Proved for classes without bytearray fields for any two views with the same bits, and for all classes for
views that begin at the same bit of a byte and agree up to the end of their last byte (so a window of whole bytes is
unpacked like these bytes alone). Refuted for bytearray fields that end inside a byte. Missing: bytearray fields at
whole bytes when the alignment differs.

* `C78_bits_partial` (Props/Surround.lean): C78 for classes without byte arrays: what is unpacked (or the error that
  is raised) depends only on the bits of the view, not on the bit at which it begins, nor on the buffer around it.
  Selectors may be there if they cannot tell the two inputs apart. Missing: byte arrays, see `C78_refuted` and
  `C78_surround_partial`.
* `C78_surround_partial` (Props/Surround.lean): C78 for all classes: two inputs that begin at the same bit of a byte,
  have the same length and agree up to the end of their last byte are unpacked alike.
* `C78_window` (Props/Surround.lean): C78 for whole bytes: unpacking the bytes `b` out of the middle of a larger
  buffer is the same as unpacking them alone.
* `C78_refuted` (Props/Surround.lean): C78 is violated by byte arrays that end inside a byte: unpacking two views of
  the same four bits gives different byte arrays, which show the bits behind the view.

### C79 A field is unpacked from the bits at its position and nothing else (partial)

After a successful unpack every field whose unpack condition holds is what its type makes of exactly the bits of the
input at its position, in the order of the position's ranges: the number with these binary digits, the integer with
this representation, these bytes, a nested buffer unpacked from them, or what the selector chose to make of them. The
position may depend on other fields and may extend to the end of the input. Two inputs that agree at the position of a
field give the same value of the field, whatever the rest.

*Modelled:* Buffer/Class.lean, Buffer/IOBuffer.lean, Props/Values.lean

*Proved by:* inversion of `unpack_spec` (the values of the references) down to the gathered view, then the
specifications of gather and of the unpackers.

*Result:* C79_value holds for every codec and position; integers, byte arrays at whole bytes, nested buffers and
selectors have corollaries in plain terms. C79_local_partial leaves out byte arrays of a part of a byte (they can show
bits behind their end, C78_refuted). C79_explicit_refuted: a nested buffer with byte_size and no selector can be
packed but never unpacked.

* `C79_value` (Props/Values.lean): after unpacking, every field whose condition holds is what its unpacker makes of
  the bits at its position, wherever that is (it may depend on other fields or extend to the end of the input), given
  the size and number of items.
* `C79_bit_int` (Props/Values.lean): C79 for integers that are not of 1, 2, 4 or 8 bytes: the number whose binary
  digits, lowest first, are the bits at the position. Digits beyond the end of the input are 0.
* `C79_struct_int` (Props/Values.lean): C79 for integers of 1, 2, 4 and 8 bytes: if the bits at the position are those
  of the representation of `k`, the field is `k`.
* `C79_bytes` (Props/Values.lean): C79 for byte arrays at whole bytes: the bytes with the bits at the position.
* `C79_nested` (Props/Values.lean): C79 for nested buffers: an object of the class, unpacked from the bits at the
  position.
* `C79_selector` (Props/Values.lean): C79 for selectors: called with the object and the bits at the position; if it
  returns a class, an object of that class is unpacked from these bits; if it returns a pair, its first component is
  the value; if it returns `None`, the field is `None`.
* `C79_local_partial` (Props/Values.lean): C79 (locality): if the inputs agree at the position of a field then so do
  the values of the field, whatever happens elsewhere in the two inputs and objects; lists must have the same number
  of items in both, selectors must choose alike. Missing: byte arrays of a part of a byte (`C78_refuted`).
* `C79_explicit_refuted` (Props/Values.lean): A nested buffer with an explicit `byte_size` and no selector can never
  be unpacked (`KeyError`, reported as `InstructBufferError`).

### C80 References denote what they look like (partial)

bytes_ref[k] is byte k, bytes_ref[i:j] the bytes i..j-1 (either bound may be left out), x.bits[k] and x.bits[i:j] the
bits of a position of one range, a sum of positions their ranges one after the other; negative or reversed bounds
raise AssertionError. len_ref is the number of characters, bytes or items; min_ref and max_ref the first smallest and
first largest number; self_ref.x the attribute (when packing) or what the object will have there (when unpacking);
total_size the end of the last position, which is the number of bytes packed.

*Modelled:* Buffer/Class.lean, Buffer/BitRange.lean, Props/RefValues.lean

*Proved by:* evaluation of the programs of the references in the plain semantics (`Denotes`), which the engine
computes (C53, C54); induction on argument lists.

*Result:* C80_total_refuted: when packing, total_size also counts fields that are not packed, so it is not the number
of bytes that pack returns. bits of positions of several ranges: see C40.

* `C80_byte_at` (Props/RefValues.lean): `bytes_ref[k]` is the byte at the value of `k`.
* `C80_byte_slice` (Props/RefValues.lean): `bytes_ref[x:y]` is the bytes from the value of `x` to that of `y`.
* `C80_bit_at` (Props/RefValues.lean): `x.bits[i]` where the position `x` is one range: its `i`-th bit.
* `C80_bit_bool` (Props/RefValues.lean): `x.bits[b]` with a `bool`: `False` is the bit 0 and `True` the bit 1.
* `C80_bit_slice` (Props/RefValues.lean): `x.bits[i:j]` where the position `x` is one range: its bits `i, …, j - 1`.
* `C80_ranges` (Props/RefValues.lean): `x + y + …` of positions: their ranges one after the other.
* `C80_len` (Props/RefValues.lean): `len_ref(x)`: the number of characters, bytes or items.
* `C80_extreme` (Props/RefValues.lean): `min_ref(…)` and `max_ref(…)` of two or more numbers: the first of the
  smallest and of the largest ones.
* `C80_extreme_none` (Props/RefValues.lean): `min_ref(…)` and `max_ref(…)` of two or more arguments of which one is
  `None` – a field that is not there – and the others are numbers: `TypeError`.
* `C80_extreme_one` (Props/RefValues.lean): `min_ref(x)` and `max_ref(x)` of one argument: the first of the smallest
  and of the largest items of a list of numbers; an empty list is a `ValueError`, a number or `None` a `TypeError` –
  so is a call without arguments.
* `C80_attr_pack` (Props/RefValues.lean): `self_ref.name` when packing: the attribute of the object (for a field with
  `set_before_pack`: the value set).
* `C80_attr_unpack` (Props/RefValues.lean): `self_ref.name` when unpacking: what the object will have there after
  unpacking.
* `C80_truth` (Props/RefValues.lean): What counts as true in `pack_if` and `unpack_if`.
* `C80_total_pack` (Props/RefValues.lean): `total_size` of a class without constant size, when packing: the end of the
  last position of all fields, also of those that are not packed.
* `C80_total_refuted` (Props/RefValues.lean): `total_size` counts fields that are not packed.

### C81 pack() accepts what a field can represent and writes all of it (partial)

pack() succeeds exactly for the values that the field's packer can represent in the size of its position (integers in
range, encodable texts, lists of acceptable items, objects that can be packed) and raises otherwise; a value that was
accepted is written completely, never cut off.

*Modelled:* Serialize, BitView, Class

*Proved by:* Exact set of accepted values per packer, induction over copied bytes with spilling last byte, iff for
pack() at static positions; Accepts

*Result:* C81_codec, C81_static, C81_bit_int, C81_int_nosize proved; C81_whole_partial covers integers and floats;
C81_truncated_refuted: longer texts and byte strings are cut off silently, a number in a bytearray_field is taken for
that many zero bytes. C81_text, C81_raw and C81_list say exactly which bytes strings, byte arrays and lists become,
hence when something is cut off. str() of floats, bytes, lists and Buffers in string fields is not modelled.

* `C81_bit_int` (Props/Accepts.lean): what an integer field of `w` bits packs, for numbers of any sign: `0 ≤ i < 2^w`
  its binary digits; `-k` with `0 < k < 2^w` the digits of `256^m - k`, where `m` is the number of bytes of `k` (so
  the digits above `8 m` are zeros, not copies of the sign); all other integers raise `ValueError`, and what is not an
  integer raises `AttributeError`.
* `C81_int_nosize` (Props/Accepts.lean): `pack_int` without `byte_size` (the public function) packs a positive number
  to its binary digits without leading zeros, but `0` raises `ValueError`; with `byte_size=None` (a field whose
  position is open) every integer raises `AssertionError`.
* `C81_int` (Props/Accepts.lean): see the file.
* `C81_str` (Props/Accepts.lean): see the file.
* `C81_float` (Props/Accepts.lean): see the file.
* `C81_bytes` (Props/Accepts.lean): see the file.
* `C81_codec` (Props/Accepts.lean): a packer accepts exactly the values of `Accepts`, and raises for all others.
  (Values whose treatment is not modelled, such as floats in string fields, are counted as not accepted: this is about
  the others.)
* `C81_pack` (Props/Accepts.lean): after a successful `pack()` the value of every packed field (its attribute, or what
  `set_before_pack` gave) is one that its packer accepts.
* `C81_static` (Props/Accepts.lean): in a class whose fields are at static positions `L i`, exactly when does `pack()`
  succeed? When the conditions can be evaluated, every field to be packed has a value that its packer accepts and that
  fills its position, and no packed position lies outside the declared size.
* `C81_whole_partial` (Props/Accepts.lean): C81 (partial): the packed value of an integer or float field at a static
  position has exactly the bytes that the position needs, so all of it is written. Missing: strings, byte arrays and
  lists, see `C81_truncated_refuted`; and `endian='unspecified'` for 4 bytes (`C45_unspecified_refuted`).
* `C81_truncated_refuted` (Props/Accepts.lean): C81 is violated: `pack()` writes the first three characters of a
  longer text, without an error, and the first bytes of a longer byte string; and it takes a number in a
  `bytearray_field` for that many zero bytes.
* `C81_text` (Props/Cut.lean): C81, texts: what a string field at a static position writes. The position must have a
  whole number `n` of bytes, the padding must be one byte; the encoded text is filled up to `n` bytes, and written as
  it is if it is longer: then the bytes from `n` on are lost, since only the position is written to
  (`C42_layout_partial`).
* `C81_raw` (Props/Cut.lean): C81, byte strings: what a byte array field writes, whatever its position; of a longer
  value the rest is lost, since only the position is written to.
* `C81_list` (Props/Cut.lean): C81, lists: a list field at a static position writes its items one after the other,
  each as its own packer writes it for the size of the whole position, without gaps; only the end is filled up to a
  whole byte.

### C82 Declarations mean what they say or are rejected (partial)

bytes_ref[s:e] is accepted exactly if each bound is left out, a non-negative number or a numeric reference and two
numbers are in order; bytes_ref[x] exactly for non-negative integers and numeric references (AssertionError for
negative ones, TypeError otherwise); with numbers they denote these bytes in every class, and p.bits[i:j] these bits
of p. A field macro accepts its arguments exactly if either where alone or where_when_pack and where_when_unpack are
given (ValueError/AssertionError otherwise), the position does not fail already when evaluated without an object (that
exception is raised), byte_size is no expression, set_after_unpack no reference and unpack_after consists of fields;
the field then has this type and these positions, conditions, sizes, counts, order, functions and default, and a
position known at declaration has this value for all objects and inputs. A byte_size of zero counts as none.
uint/be/le macros give the sign and byte order of their names. Fails: bit slices do not take references
(NotImplementedError), open bit slices are accepted but raise whenever used, positions for packing and unpacking of
different known sizes are accepted, set_after_unpack raises UnboundLocalError for references, a function as pack_if is
never called, byte_size given as an expression raises NotImplementedError, be_int_field(endian='little') is big-
endian.

*Modelled:* Buffer/Declare.lean, Props/Declare.lean

*Proved by:* exact conditions for each constructor; static values carry over by refinement of programs; witnesses for
what fails

*Result:* refuted: bit slices with reference bounds, open bit slices, different known sizes, set_after_unpack as a
reference, byte_size as an expression, keyword endian of be_int_field

* `C82_byte_slice` (Props/Declare.lean): `bytes_ref[s:e:t]` is accepted if and only if there is no step other than 1,
  either bound is left out, a number that is not negative or a numeric reference, and two numbers are in order.
* `C82_bit_slice` (Props/Declare.lean): `p.bits[s:e:t]` is accepted under the same conditions, but references are no
  bounds.
* `C82_bit_ref` (Props/Declare.lean): A numeric reference as the bound of a bit slice raises `NotImplementedError`.
* `C82_bit_ref_refuted` (Props/Declare.lean): `bytes_ref[0].bits[0:n]` for a field `n`.
* `C82_index` (Props/Declare.lean): `bytes_ref[x]` is accepted if and only if `x` is an integer that is not negative,
  a `bool` or a numeric reference; a negative integer raises an `AssertionError`, anything else a `TypeError`.
  `p.bits[x]` takes all integers, `bool`s and numeric references.
* `C82_bytes` (Props/Declare.lean): `bytes_ref[i:j]` with natural numbers `i ≤ j` is the position of the bytes `i, …,
  j - 1`, in every class that has it.
* `C82_bits` (Props/Declare.lean): `p.bits[i:j]` with natural numbers `i ≤ j` is the position of the bits `i, …, j -
  1` of `p`.
* `C82_single` (Props/Declare.lean): `bytes_ref[i]` with a natural number `i` is the position of the byte `i`, and
  `p.bits[i]` that of the bit `i` of `p`.
* `C82_several` (Props/Declare.lean): `bytes_ref[i:j, k:l, …]` is the position of these bytes one after the other.
* `C82_bits_several` (Props/Declare.lean): `p.bits[i:j, k:l, …]` is the position of these bits of `p`, one after the
  other.
* `C82_bits_open_refuted` (Props/Declare.lean): `bytes_ref[0:].bits[3:]` is accepted, and raises a `TypeError`
  whenever it is used.
* `C82_field` (Props/Declare.lean): A field is accepted if and only if it has a position (`where` alone, or
  `where_when_pack` and `where_when_unpack` alone), its position for unpacking is not wrong already, its `byte_size`
  is not an expression, `set_after_unpack` is not a reference and `unpack_after` consists of fields. The field has
  then the positions, the order, the functions and the default that were given.
* `C82_arguments` (Props/Declare.lean): What an accepted field consists of: its type, the value to set before packing
  and its conditions, sizes and counts are those that were given.
* `C82_position` (Props/Declare.lean): Without a position a `ValueError` is raised, with `where` and one of the others
  an `AssertionError`.
* `C82_static` (Props/Declare.lean): If an accepted field has a position that can be evaluated without the object, the
  position has this value in every class with these references, for all objects and inputs; it is a list of ranges.
* `C82_wrong` (Props/Declare.lean): If a position is wrong already (its evaluation raises something else than that it
  needs the object), the declaration raises this exception.
* `C82_sizes_refuted` (Props/Declare.lean): `int_field(where_when_pack=bytes_ref[0:2],
  where_when_unpack=bytes_ref[0:1])`.
* `C82_after` (Props/Declare.lean): see the file.
* `C82_after_refuted` (Props/Declare.lean): see the file.
* `C82_condition` (Props/Declare.lean): A function as `pack_if` or `unpack_if` is not called: the field is the same as
  without a condition, whatever the function does.
* `C82_size` (Props/Declare.lean): A `byte_size` that is zero, `None` or `False` is the same as none at all.
* `C82_size_refuted` (Props/Declare.lean): `int_field(where=bytes_ref[0], byte_size=n + 1)` for a field `n` raises
  `NotImplementedError`.
* `C82_macros` (Props/Declare.lean): Whatever is passed, the integer has the sign and byte order that the name of the
  macro says, or a `TypeError` is raised.
* `C82_macros_refuted` (Props/Declare.lean): `be_int_field(endian='little')` is big-endian.

### C83 Byte arrays with bit positions behave as mutable sequences of bytes (partial)

For a BitAwareByteArray over whole bytes (its entire buffer): a[k], a[k]=x (0<=x<256) and del a[k], pop(k) do what
they do for a list for every index the list has; insert(k,x) does for every k; append, extend(bytes), index, remove,
count, in, reverse and clear do what they do for lists, so every sequence of them does. a[k] behind the end raises
IndexError; numbers of more than eight bits raise ValueError. Fails: a[k] and a[k]=x before the beginning mean the
first item, del a[k] behind the end removes the last byte and before the beginning the first, a[k]=-2 stores 254; in a
view that ends before its buffer does, index(x) for an absent x other than 0 never ends and index(0) finds a position
behind the end.

*Modelled:* Buffer/Sequence.lean, Props/Sequence.lean

*Proved by:* each method on whole bytes is shown equal to the list function; induction over the search and reverse
loops; witnesses for what fails; nontermination: no fuel is enough

*Result:* refuted: indices out of range for getting, setting and deleting (del never raises, C83_delete_any; of an
array of less than a byte it leaves a negative length, and len() of an array that was empty raises ValueError from
then on, C83_delete_short), negative items, index on views of a part of a buffer

* `C83_get` (Props/Sequence.lean): `array[k]` is the item of the list, for all indices that the list has.
* `C83_get_beyond` (Props/Sequence.lean): Behind the end `array[k]` raises `IndexError`.
* `C83_get_before` (Props/Sequence.lean): Before the beginning `array[k]` is the first item, if there is one.
* `C83_get_refuted` (Props/Sequence.lean): `array[-3]` is the first item of an array of two.
* `C83_set` (Props/Sequence.lean): `array[k] = x` for a byte `x` replaces the item.
* `C83_set_range` (Props/Sequence.lean): Integers that need more than eight bits raise `ValueError`.
* `C83_set_refuted` (Props/Sequence.lean): `array[-3] = 9` replaces the first item of an array of two.
* `C83_byte_refuted` (Props/Sequence.lean): `array[0] = -2` makes the item 254.
* `C83_insert` (Props/Sequence.lean): `array.insert(k, x)` for a byte `x` is `insert` of lists, for all `k`.
* `C83_append` (Props/Sequence.lean): `array.append(x)`.
* `C83_extend` (Props/Sequence.lean): `array.extend(bytes)`, `array += bytes`.
* `C83_delete` (Props/Sequence.lean): `del array[k]` removes the item.
* `C83_pop` (Props/Sequence.lean): `array.pop(k)` returns the item and removes it.
* `C83_delete_beyond` (Props/Sequence.lean): `del array[k]` behind the end removes the last byte.
* `C83_delete_short` (Props/Sequence.lean): `del array[k]` of an array of less than a byte – the empty one too – never
  raises, whatever `k`: the array is left with a negative length, and `len(array)` is 0, or raises `ValueError` if the
  array was empty.
* `C83_delete_any` (Props/Sequence.lean): `del array[k]` for every array of whole bytes and every `k`: nothing is ever
  raised, the item at the place where `insert(k, …)` would insert goes, if there is one, and the array is a byte
  shorter in any case.
* `C83_delete_refuted` (Props/Sequence.lean): `del array[5]` removes the last item of an array of two, `del array[-5]`
  the first; of no array and no index is the claim true.
* `C83_index` (Props/Sequence.lean): `array.index(x)` is the first index of `x`, or raises `ValueError` if there is
  none.
* `C83_endless` (Props/Sequence.lean): In a view that does not reach to the end of its last byte of the buffer,
  `view.index(x)` for a number that is not among its bytes nor 0 never ends.
* `C83_index_refuted` (Props/Sequence.lean): `BitView(b'\x07\x08\x09', 0, 2).index(9)` never ends.
* `C83_remove` (Props/Sequence.lean): `array.remove(x)` removes the first `x`, or raises `ValueError` if there is
  none.
* `C83_count` (Props/Sequence.lean): `x in array` and `array.count(x)`.
* `C83_reverse` (Props/Sequence.lean): `array.reverse()`.
* `C83_clear` (Props/Sequence.lean): `array.clear()`.

### C84 repr of a Struct instance says what the instance holds (partial)

repr(obj) is Class(name=value, ...) with the fields in the order of their declaration, integers in decimal, floats to
six decimals; two instances of a class with the same text have equal field values; int_repr_format and
float_repr_format in the context of a class or given to to_repr are used for all numbers of its instances.

*Modelled:* Struct/Text.lean

*Proved by:* texts as lists of characters, bytes literals and decimal numbers as CPython prints them; injectivity by
showing that every text says where it ends (a prefix code), by induction over marshals and nesting depth; the decimals
of floats against the IEEE value.

*Result:* Exact text for integer classes (C84_integers), floats within half a millionth (C84_float), floats in integer
format and integers in float format (C84_float_as_int, C84_int_as_float), injective for everything but floats
(C84_text_partial). Refuted: floats show six decimals only, so different instances print alike; the format of a nested
class is not used when an outer class has one.

* `C84_float_as_int` (Props/FormatText.lean): a finite float in an integer field is printed as the integer it is
  truncated to (`x` is its value in units of 2^-1074).
* `C84_int_as_float` (Props/FormatText.lean): an integer in a float field is printed as the float nearest to it, with
  six zeros: exactly below 2^53, and else as a multiple of a power of two with at most 53 bits that differs from it by
  at most the 2^53-rd part.
* `C84_float_whole` (Props/ReprFloat.lean): a float whose value is the integer `F` or `-F` is printed as that integer
  and six zeros.
* `C84_float_int` (Props/ReprFloat.lean): an integer in a float field is printed as the float that it is converted to.
* `C84_int_float` (Props/ReprFloat.lean): a finite float in an integer field is printed as the integer that it is
  truncated to.
* `C84_text_partial` (Props/ReprText.lean): C84 (partial): the text that `repr` gives identifies the values. Two
  instances of the same class of integers, strings, mappings, bit fields, arrays, structs and optional fields, nested
  in any way, that print the same text have the same value in every field. Missing: floats (`C84_refuted`), values of
  other types than those that the marshals read.
* `C84_integers` (Props/ReprText.lean): the exact text of an instance of integer fields: the name of the class and, in
  the order of the declaration, `name=value` in decimal.
* `C84_refuted` (Props/ReprText.lean): C84 is violated by floats: only six decimals are shown, so `1.0` and the next
  number print as `1.000000`.
* `C84_float` (Props/ReprText.lean): a finite float is printed with its sign and six decimals, as the nearest such
  number: it differs from the value by at most half a millionth.
* `C84_format` (Props/ReprText.lean): `int_repr_format` in the context that is passed to `to_repr` is used for every
  integer of the instance itself, whatever the class says.
* `C84_own_partial` (Props/ReprText.lean): it is, unless the caller's context has a format.
* `C84_own_refuted` (Props/ReprText.lean): C84 is violated by nested structs: inside a struct that has a format of its
  own the format of the inner one is not used.

### C85 A Struct's bytes, size and text depend only on the values of its fields (proved)

to_bytes, sizeof and repr of an instance give the same result (or exception) for two instances of a class whose
attributes named by plain, optional and bit fields agree. Other attributes, and instance attributes named like a
constant, have no effect. An attribute that was deleted counts as the default declared for its field, and an instance
without attributes is written as if every field had its default.

*Modelled:* Struct/Schema.lean (`getValue`, `writeFields`, `fieldsSizeof`), Struct/Text.lean

*Proved by:* congruence: each function of the fields uses the instance only through the lookups listed by `LooksUp`

* `C85_values` (Props/Depends.lean): the bytes, the size and the text of an instance depend only on the attributes
  that the fields of its class look up. Other attributes, and attributes with the name of a constant, do not matter.
* `C85_deleted` (Props/Depends.lean): an attribute that has been deleted counts as the default of its field, for the
  bytes, the size and the text. (The field of this name must be the only one, or the others must have the same
  default.)
* `C85_bare` (Props/Depends.lean): an instance without any attributes is written as if every field had its default.

### C86 pack and unpack touch only the attributes they have to (proved)

The bytes that obj.pack() returns, or the exception it raises, depend only on the attributes of the fields without
set_before_pack, on other attributes named in self_ref expressions, and on what the functions given by the user look
at. pack() changes only attributes of fields with set_before_pack, unpack() only attributes of fields, also when they
raise half-way.

*Modelled:* Buffer/Class.lean, Buffer/Leaves.lean

*Proved by:* Two runs are followed side by side (as in C77), for any relation between the objects that every action
respects; invariants of the object are the special case of equal objects.

* `C86_pack` (Props/Touches.lean): packing depends only on the attributes that it looks at. If two objects of a class
  agree in the attributes of the fields that are not set before packing, in the other attributes named in references,
  and in what the functions of the class look at, then both are packed to the same bytes or both raise the same, and
  they still agree afterwards.
* `C86_unread` (Props/Touches.lean): C86 for classes without functions: an attribute that is neither that of a field,
  unless it is set before packing, nor named in a reference can be changed, added or removed without any effect on the
  bytes or the exception.
* `C86_pack_changes` (Props/Touches.lean): packing changes only the attributes of the fields that are set before
  packing, whether or not it raises, provided that the functions of the class do not change others either.
* `C86_pack_pure` (Props/Touches.lean): a class without `set_before_pack` and without functions is packed without any
  change of the object.
* `C86_unpack_changes` (Props/Touches.lean): unpacking changes only the attributes of the fields, whether or not it
  raises, provided that the functions of the class do not change others either.

### C87 ReadAheadStream passes writes on when nothing is read ahead (partial)

stream.write(b) on a ReadAheadStream that is not in read-ahead mode and whose buffer is empty writes b to the stream
behind it; with bytes in the buffer it raises IOError and writes nothing.

*Modelled:* Struct/Emit.lean

*Proved by:* Case analysis; refuted by an empty buffer: the code asks for an attribute read_ahead that is never set
(it is called read_ahead_mode), so the write raises AttributeError.

*Result:* violated: there is no state in which a write succeeds (C87_refuted); no Struct with a non-empty
representation can be written to such a stream (C87_struct)

* `C87_refuted` (Props/Emit.lean): C87 is violated: it asks for an attribute that does not exist
  (read_ahead_stream.py:32).
* `C87_partial` (Props/Emit.lean): C87 (partial): with bytes in the buffer it raises `IOError`, and in no case does
  anything reach the stream behind it or change what there is to read. Missing: there is no state in which a write
  succeeds.
* `C87_struct` (Props/Emit.lean): C87, consequence: a Struct instance whose representation is not empty cannot be
  written to a `ReadAheadStream`.

### C88 write_to_stream writes what write_to_string returns, or nothing (partial)

cls.write_to_stream(obj, stream) calls stream.write with the same chunks whatever the stream; put together they are
what write_to_string(obj) returns. If write_to_string raises, write_to_stream raises the same and the stream is as
before. An exception of the stream ends the writing and is passed on. What has been written to a BytesIO at some
position is read back from there.

*Modelled:* Struct/Emit.lean

*Proved by:* A second model makes the calls of stream.write one by one on an arbitrary stream; induction on marshals
and nesting shows that it refines the model of write_to_string.

*Result:* violated in one point: after an exception the fields before the one that failed are in the stream
(C88_atomic_refuted); C88_failed says exactly what is there, C88_one_call which fields leave nothing of themselves

* `C88_calls` (Props/Emit.lean): what `write_to_stream` does to a stream does not depend on the stream: it calls
  `stream.write` with the same chunks in the same order, stopping at the first call that raises, with that exception.
  If `write_to_string` returns bytes, these are the chunks put together and nothing else is raised; if it raises, the
  same exception is raised after the last chunk.
* `C88_marshal` (Props/Emit.lean): C88 for any marshal used by itself (`marshal.write_to_stream(value, stream)`).
* `C88_append` (Props/Emit.lean): `write_to_stream` appends what `write_to_string` returns, and raises what it raises.
* `C88_bytesIO` (Props/Emit.lean): C88 for `io.BytesIO`: the bytes overwrite the content from the position on, which
  moves behind them. (A position behind the end is filled up with zeros first.)
* `C88_reread` (Props/Emit.lean): C88, there and back: an instance that fits the schema, written to a `BytesIO` at any
  position, is read back from that position, which leaves the stream as the writing did.
* `C88_failed` (Props/Emit.lean): C88, when a field cannot be written: the bytes of the fields before it are in the
  stream, then what this field has written itself, and nothing of the fields after it.
* `C88_one_call` (Props/Emit.lean): a field that is a number, a code of a mapping, padding or a container of bit
  fields has written nothing when it raises, whatever the stream.
* `C88_atomic_refuted` (Props/Emit.lean): C88 is violated: the fields before the one that cannot be written are in the
  stream already.
* `C88_field_refuted` (Props/Emit.lean): A string that has been written before the padding turns out to be missing:
  even a single field may leave bytes behind.

### C89 Struct declarations mean what they say or are rejected (partial)

BitFields(...) without positions is accepted exactly if every field has one definite size (0 <= size <= sys.maxsize,
not optional) and the sizes are whole bytes together (otherwise InstructError / BitFieldNotInByteBoundry); with
positions (Bits[...]) exactly if all fields have positions (AssertionError otherwise), none is without slices
(ValueError) or of negative size, and the highest bit used ends a byte; other containers inside are refused. The
accepted container writes every field into the declared bits and reads it from there. BitField and Bits[...] refuse
slices with open ends and numbers among slices. PaddedString accepts defaults of at most its size, FixedSizeBuffer and
FixedSizeArray of exactly their size, and accepted byte strings can be written in exactly the declared number of
bytes. ConstField accepts a marshal, a Struct instance as marshal, or a value that is one. Fails: Bits[i] is None and
no container accepts it; overlapping slices and numeric fields are accepted in BitFields; defaults and constants that
can never be written are accepted; two fields can have one name; ConstField(name, S(...), S) raises
NotImplementedError.

*Modelled:* Struct/Macros.lean

*Proved by:* exact conditions for each macro by induction over the fields; the layout from C07 and C09; witnesses for
what fails

*Result:* refuted: Bits[i], overlapping slices, numbers as bit fields, unchecked defaults and constants, equal names,
ConstField with a Struct class as marshal, text as default of strings

* `C89_sequential` (Props/Macros.lean): C89, bit fields one after the other: `BitFields(…)` without positions is
  accepted if and only if every field has one size and these sizes are a whole number of bytes together. The container
  has then these fields and this number of bytes.
* `C89_sequential_refused` (Props/Macros.lean): C89, what is refused without positions: a field of no definite size
  with an `InstructError`, a number of bits that is not a whole number of bytes with `BitFieldNotInByteBoundry`, and a
  field without any size (see `C89_bit_index_refuted`) with a `TypeError`.
* `C89_positional` (Props/Macros.lean): C89, bit fields with positions: `BitFields(…)` is accepted if and only if
  every field has at least one slice and a size that is not negative, and the last bit that is used is the last one of
  a byte. The container has then these fields and as many bits as there are up to there.
* `C89_mixed` (Props/Macros.lean): C89, mixtures: fields with and without positions are not accepted together, and
  neither is a container inside.
* `C89_bit_field` (Props/Macros.lean): C89, `BitField` and `Bits`: a number gives a field of this many bits; slices
  with both bounds give a field at these bits; other slices, and numbers among slices, are refused.
* `C89_sequential_layout` (Props/Macros.lean): C89, the layout: an accepted declaration of bit fields one after the
  other is written into as many bytes as it has, the fields from the lowest bit on in the order of the declaration,
  each in as many bits as declared, and read back from there.
* `C89_positional_layout_partial` (Props/Macros.lean): C89, the layout with positions: if in an accepted declaration
  no slice is empty, backwards, before bit 0 or overlaps another one, every bit of a value is written to the bit that
  its slices say, from the low bits on, all other bits are zero, and the values are read back. (Overlapping and
  backward slices are accepted, too: `C89_overlap_refuted`.)
* `C89_bit_index_refuted` (Props/Macros.lean): C89 fails: `Bits[i]` for one bit gives nothing (`None`). The field can
  be made, but no container accepts it.
* `C89_overlap_refuted` (Props/Macros.lean): C89 fails: slices that overlap are accepted. Writing `a = 1`, `b = 2`
  gives a byte from which both are read as 3.
* `C89_numbers_refuted` (Props/Macros.lean): C89 fails: numbers can be declared as bit fields. Eight one-byte numbers
  are taken for eight bits; such a container can never be written or read.
* `C89_default` (Props/Macros.lean): C89, defaults: a padded string accepts a default of at most its size, a buffer
  and an array one of exactly their sizes; the field has then this name, size and default.
* `C89_default_written` (Props/Macros.lean): C89, accepted defaults: a byte string that is accepted as the default of
  a padded string or buffer can be written, in exactly the declared number of bytes.
* `C89_default_refuted` (Props/Macros.lean): C89 fails: the default of a number is not checked. `UBInt8("x", 300)` is
  accepted, and an instance with its defaults cannot be written.
* `C89_text_refuted` (Props/Macros.lean): C89 fails for text: a text of the right length is accepted as the default of
  a string or of a buffer, whatever the padding and the direction, but an instance with its defaults cannot be
  written.
* `C89_same_name_refuted` (Props/Macros.lean): C89 fails: two fields can have the same name. The bytes 1, 2 are read,
  but written back as 2, 2.
* `C89_const` (Props/Macros.lean): C89, constants: `ConstField(name, value, marshal)` is accepted if and only if there
  is a marshal: the one that is given, the class of a Struct instance that is given as such, or, if none is given, the
  value itself in one of these forms.
* `C89_const_class_refuted` (Props/Macros.lean): C89 fails: a constant struct together with its class,
  `ConstField("k", S(…), S)`, is refused, and not even with an `InstructError`: the message contains the text of the
  instance, which the class refuses to give.
* `C89_const_value_refuted` (Props/Macros.lean): C89 fails: the value of a constant is not checked. `ConstField("k",
  300, UBInt8)` is accepted, and then no instance can be written and no bytes can be read.
* `C89_flags` (Props/Macros.lean): a flag is a bit field of one bit, padding takes the bits it says and has no name:
  `n` flags followed by `k` bits of padding are accepted exactly if `n + k` is a multiple of 8, and take `(n + k) / 8`
  bytes; otherwise `BitFieldNotInByteBoundry`.

### C90 Unpacking a list calls the element unpacker once per item, with the index, the items so far and the rest of the input (partial)

Unpacking a list field calls its element unpacker (or unpack_selector) for items 0, 1, 2, … in order, each time with
the index, n, the items already unpacked (container) and the input from where the previous item ended; the answer of
the selector (a Buffer class, an (item, size) pair or None) makes the item and decides where the next begins. unpack
returns exactly the items up to the first point where n items are there or the input is used up, raises exactly what a
further call raises, and otherwise does not return. The list has n items, and takes no more bytes than there are.

*Modelled:* Buffer/Serialize.lean, Buffer/Class.lean

*Proved by:* the loop is compared with a relation that lists the calls one by one; both directions, including endless
runs

*Result:* Proved for every element unpacker: which calls happen, with which arguments, and when the loop returns,
raises or never ends. Refuted: n is only an upper bound (a short input gives a shorter list without complaint), and
the size a selector gives is believed even if it exceeds the input.

* `C90_calls` (Props/Items.lean): C90, the calls: unpacking a list calls the unpacker of the items again and again, as
  `Calls` says. It returns the items and where they end exactly if the calls reach a point where no further item is
  asked for; it raises exactly what a further call raises; and it never returns exactly if there is always one more
  item (or the unpacker itself does not return). This holds for every unpacker, also if its items have size zero.
* `C90_rest` (Props/Items.lean): C90, what a call is given: as long as the place is not beyond the size of the list,
  the bits from there to the size of the list or the end of the input, whichever comes first; beyond it
  `AssertionError` is raised.
* `C90_items` (Props/Items.lean): C90, the items one by one: if unpacking a list returns, then there are places `at 0
  = 0, at 1, …`, each where the item before ended. The item number `i` is what the unpacker made of the bits from `at
  i` on, called with the number `i` and the items before; the size of the list is the place where the last item ended.
* `C90_selector` (Props/Items.lean): C90, selectors of lists: if unpacking a list field with a selector returns, the
  selector was called once for every item, in order, with the object, the index of the item, the number of items as
  given, the items before it, the size of the list, and the rest of the input; its answer made the item and decided
  where the next one begins.
* `C90_count` (Props/Items.lean): C90, the number of items: a list that was given a number of items may have fewer,
  and then just because the input was used up; no exception says so.
* `C90_short_refuted` (Props/Items.lean): a list of three bytes unpacked from two bytes is a list of two items.
* `C90_within_refuted` (Props/Items.lean): the size that a selector gives is believed: a list unpacked from one byte
  is said to have taken three.
* `C90_count_type` (Props/Items.lean): what `n` may be: something that is neither an integer nor `None` raises
  `AssertionError` before any item is unpacked; a negative number gives an empty list.

### C91 What references, Buffers and reports of failures print as (partial)

repr of a reference never raises. Two references that are built from numbers, fields, self.x, arithmetic and
comparisons, num_ref, len_ref, min_ref, max_ref, total_size, byte slices and bits of those print the same text only if
they are the same expression; likewise for all other references (positions with several pieces, single bytes, after(),
function calls). repr of a Buffer shows all of its fields with their values and fails only if printing a value fails.
The InstructBufferError of a failed pack or unpack is always raised and lists, sorted and each once, every resolved
reference that prints differently from its value; CyclicReferenceError lists the references being resolved, in order,
and the one met again.

*Modelled:* `Buffer/Print.lean`: `RefT.safeRepr`, `RefT.repr`, `bufferRepr`, `resolvedLines`, `reportOutcome`,
`cycleLines`

*Proved by:* injectivity by induction: the text of a reference tells where it ends; sortedness by induction;
refutations by the printed text

*Result:* Refuted: positions with several pieces print the characters of the repr of a generator, whatever the pieces;
a single byte prints as its number; after() and calls of Python functions print as 'repr error' (Context is not
imported, func_name does not exist in Python 3); calls of other functions print with unbalanced parentheses;
Buffer.__repr__ leaves out inherited fields; a resolved value whose repr raises replaces the InstructBufferError. The
distinctness theorem covers the fragment stated first; attribute references (ctx.obj.x) and products and quotients are
not in it.

* `C91_total` (Props/Print.lean): `repr` of a reference never raises: what cannot be printed is named by its type and
  address.
* `C91_distinct_partial` (Props/Print.lean): References made of numbers, fields, operators and the functions of the
  library print differently if they are different.
* `C91_positions_refuted` (Props/Print.lean): Not all: positions given by several pieces all print alike, and the
  position of one byte prints like its number.
* `C91_broken_refuted` (Props/Print.lean): Not all: the end of a field, and calls of functions written in Python,
  print as errors.
* `C91_call_refuted` (Props/Print.lean): Not all: what is printed for a call of another function without arguments has
  two parentheses too few on the left.
* `C91_operators` (Props/Print.lean): Products and quotients print with the `repr` of the function of the operator
  module, all else with its symbol.
* `C91_buffer` (Props/Print.lean): `repr` of a `Buffer` shows the fields that its class declares, one after the other,
  and fails if printing one of the values does.
* `C91_inherited_refuted` (Props/Print.lean): Not all: what an instance holds in a field that only a base class
  declares does not show.
* `C91_lines` (Props/Print.lean): The report of a failure lists, in order and each once, the references whose value
  prints otherwise than they do.
* `C91_report` (Props/Print.lean): The report is made if all cached values can be printed; else what reaches the
  caller is what `repr` of the first such value raised.
* `C91_report_refuted` (Props/Print.lean): Not all: a value whose `repr` raises `TypeError` makes a failure come out
  as that.
* `C91_cycle` (Props/Print.lean): The message about a cycle can always be made: a line for each reference that is
  being resolved and one for the one met again.

### C92 A selector sees the values that are unpacked (partial)

When an unpack_selector reads fields of the object that are unpacked before its own field, because their names come
first or because they are named in unpack_after, it sees the values that these fields have in the finished object:
unpack() ends with an object if and only if it does so with every selector called with that finished object instead.

*Modelled:* Buffer/Class.lean, Buffer/Engine.lean

*Proved by:* a second class whose selectors are called with a fixed object, run in lock-step: what has been evaluated
before a field is its turn (SoFar), which fields a reference asks for (AsksOnly), induction over the loop of unpack;
used for the round trip of fields with selectors (C43_choice_partial); witness for a selector that is called too
early.

*Result:* Refuted as stated: if another field whose name comes first is positioned behind the selected field, the
selector is called before the fields named in unpack_after are unpacked (C92_refuted). Proved when nothing asks for
the field before its turn, with no member functions that change the object, and for fields that are always unpacked
(C92_foreseen, C92_final).

* `C92_foreseen` (Props/Choose.lean): the selectors of a class may look at fields in order (`InOrder`). Then unpacking
  ends with an object `a` if and only if it does so with all selectors called with `p` instead of the object being
  unpacked, where `p` is any object that agrees with `a` in the fields that selectors look at.
* `C92_final` (Props/Choose.lean): in particular the selectors may as well be called with the object that unpacking
  ends with.
* `C92_refuted` (Props/Choose.lean): C92 is violated in general: in `peekClass` another field asks where the selected
  one ends, before it is its turn; then the selector is called before the fields in `unpack_after` are unpacked, and
  sees what the object held before.

### C93 Printing an object with lazy fields (partial)

An object read with a class that uses Lazy(...) is printed like the object read with the same class without Lazy(...),
except that the fields of a lazy container are shown as <lazy> until some field of the container has been read or
assigned or the object has been serialized; printing itself decodes nothing.

*Modelled:* Struct/LazyText.lean, Struct/Lazy.lean

*Proved by:* simulation of C28, with the set of containers still waiting after any operations; the grouped texts join
to the flat ones

*Result:* Proved after any sequence of operations for classes whose lazy containers hold ordinary fields and padding.
False for bit fields inside Lazy(...), which are printed with their defaults before decoding (C93_refuted). An object
made by calling the class cannot be printed at all when a lazy field was not given: KeyError (C93_fresh_refuted).

* `C93_text_partial` (Props/LazyPrint.lean): C93 (partial): if the class without `Lazy(...)` can be read from the
  input, then after any sequence of operations the object is printed like the ordinary one, with `<lazy>` in place of
  the fields of those containers that no operation has looked into. Missing: bit fields and constants inside
  `Lazy(...)`, for which this is false (`C93_refuted`).
* `C93_decoded` (Props/LazyPrint.lean): once every container has been looked into, the text is the one that the class
  without `Lazy(...)` gives (if the two classes have the same name and formats, and no container is empty).
* `C93_refuted` (Props/LazyPrint.lean): `Lazy(BitFields(BitField("x", 8)))`: an object read from `05` is printed as
  `X(x=0)`.
* `C93_fresh_refuted` (Props/LazyPrint.lean): What C93 leaves out: an object that has just been made cannot be printed
  if the first field, which is lazy, was not given, though one of the class without `Lazy(...)` can.

### C94 Marshals written by the user work wherever those of the library do (partial)

A subclass of Marshal that writes a value as certain bytes, tells their number in sizeof, and reads the value from
every stream beginning with them can be used as a field of a Struct, as element and as length of arrays, and as length
of strings: the composite is written as the concatenation, sizeof counts it, and reading gives the values back and
leaves the rest of the stream. A Buffer can be such a field through buffer_to_struct_adapter. What a subclass does not
define raises NotImplementedError, except min_max_sizeof, which allows every size; a class with such a field then has
sys.maxsize as upper bound and the sum of the other minima as lower bound.

*Modelled:* Struct/Schema.lean (`UserM`), Buffer/Compat.lean

*Proved by:* instance of the grammar of schemas (C20), whose induction covers user marshals; induction over the fields

*Result:* Proved for fields, arrays, the adapter, the inherited methods and the bounds. Refuted for lengths of
strings: VarSizeString.sizeof passes the string, not its length, to the marshal of the length, so a length of variable
size is written and read, but sizeof raises (C94_length_refuted; proved for lengths of constant size). min_max_sizeof
of a Struct with a Buffer inside always raises (C94_adapter).

* `C94_struct` (Props/UserMarshals.lean): a class whose fields have marshals written by the user. If each of these
  writes its value as certain bytes, knows their number and reads the value from every stream that begins with them,
  then the instance with these values is written as all the bytes one after the other, `sizeof` is their number, and
  reading any stream that begins with them, in whatever context, gives the values back and leaves the rest.
* `C94_array` (Props/UserMarshals.lean): arrays whose elements, and whose length, are marshalled by the user. The
  bytes are those of the number of the elements — for arrays with a total size those of the number of bytes of the
  elements, none of which may be empty — followed by those of the elements; these are also counted and read back.
* `C94_length_refuted` (Props/UserMarshals.lean): C94 is violated for strings whose length is marshalled by the user:
  `sizeof` passes the string, and not its length, to the marshal of the length. Numbers of as many bytes as they need
  are written and read as lengths, but their `sizeof` then raises.
* `C94_length_partial` (Props/UserMarshals.lean): C94 (partial): such strings work if the length has the same size
  whatever it is. Missing: see `C94_length_refuted`.
* `C94_defaults` (Props/UserMarshals.lean): what a marshal does that defines nothing: reading, writing and `sizeof`
  raise a `NotImplementedError`, the size may be anything.
* `C94_min_max` (Props/UserMarshals.lean): a class with a field whose marshal inherits `min_max_sizeof`. Its smallest
  size is the sum of those of the fields, of which the field contributes nothing, and the largest is `sys.maxsize`.
* `C94_adapter` (Props/UserMarshals.lean): a Buffer inside a Struct. If its size is `n` bytes, and the object is
  packed to `n` bytes from which `unpack` gives the same object, then the adapter does what is asked of a marshal, so
  that Structs that contain it are written, counted and read as `C94_struct` says. `min_max_sizeof` of these raises,
  though.

### C95 Float fields round to the nearest number (partial)

Writing a finite double to a 4-byte float field stores the nearest number of single precision (of two equally near
ones the one with an even pattern) with the same sign; it raises OverflowError iff the double is at least half way
from the largest number of single precision to 2^128. Infinities and NaNs stay what they are. Reading 4 bytes gives
exactly the number they stand for, and writing it again gives the same bytes. Integers are accepted as well: in 8
bytes they become the nearest double, and InstructError is raised iff they are at least half way from the largest
double to 2^1024; in 4 bytes they become the nearest number of single precision. Float fields of Buffers pack what
those of Structs do. Violated for signalling NaNs, which come back quiet; for integers above 2^53 in 4 bytes, which
are rounded twice; and for Buffer fields with endian='unspecified', which store infinity instead of raising.

*Modelled:* Struct/Numeric.lean (`ieee`, `floatOfInt`), Buffer/Serialize.lean (`structPackFloat`)

*Proved by:* rounding a multiple of a unit rounds to the nearest pattern (`round_nearest`); patterns are ordered like
their values

*Result:* the conversions are those of IEEE 754 with the default rounding; violated for signalling NaNs, integers
above 2^53 in 4 bytes, and endian='unspecified' in Buffers

* `C95_single` (Props/Floats.lean): a finite double is stored in 4 bytes as the nearest number of single precision,
  the even one of two, unless it is at least half way from the largest number of single precision to 2^128.
* `C95_exact` (Props/Floats.lean): reading 4 bytes gives exactly the number that they stand for.
* `C95_survives_partial` (Props/Floats.lean): numbers and infinities in 4 bytes survive reading and writing, and so do
  quiet NaNs.
* `C95_nan_refuted` (Props/Floats.lean): C95 is violated: signalling NaNs become quiet.
* `C95_reread_partial` (Props/Floats.lean): what a Struct reads from 4 bytes it writes again as the same bytes, unless
  they hold a signalling NaN (`C95_nan_refuted`).
* `C95_special` (Props/Floats.lean): infinities stay infinities of the same sign, NaNs stay NaNs, in both directions.
* `C95_convert` (Props/Floats.lean): an integer is converted to the nearest double, the even one of two, unless it is
  at least half way from the largest double to 2^1024.
* `C95_write` (Props/Floats.lean): writing an integer to a float field is writing the double it is converted to,
  except that what does not fit raises `InstructError` (and not `OverflowError`).
* `C95_int_double` (Props/Floats.lean): integers in 8 bytes: the pattern of the nearest double, or `InstructError`.
* `C95_convert_exact` (Props/Floats.lean): integers up to 2^53 become exactly that double.
* `C95_int_single_partial` (Props/Floats.lean): they are, up to 2^53.
* `C95_int_single_refuted` (Props/Floats.lean): C95 is violated: an integer is rounded twice, to a double and then to
  single precision. 2^60 + 2^36 + 1 becomes 2^60, although 2^60 + 2^37 is nearer.
* `C95_buffer` (Props/Floats.lean): float fields of Buffers with a byte order pack what those of Structs do.
* `C95_unspecified_refuted` (Props/Floats.lean): C95 is violated: with `endian='unspecified'` numbers too large for 4
  bytes are stored as infinity.

### C96 Values of other types in string and list fields come back as they were packed (partial)

A str_field packs a number, bool or None exactly like its text, and that text is what unpacking returns (different
values have different texts); a list_field packs bytes, bit arrays and texts exactly like the list of their items, and
the list is what unpacking returns. In full – a value that pack() accepts is the value that unpack() returns – this
does not hold: -7 returns as '-7', a missing value (None) is written as the text 'None', bytes return as a list of
integers.

*Modelled:* `strOf`, `BV.items` in Buffer/Serialize.lean

*Proved by:* The text of a value and the items of a value by cases; the string and list packers see nothing else of
the value, so the theorems about texts and lists (C49, C51) carry over; digits determine the number.

*Result:* Refuted in full by `C96_refuted`: what comes back is the text or the list. The texts of floats, bytes, lists
and Buffers are not modelled.

* `C96_text` (Props/AsText.lean): a string field packs a value exactly like its text.
* `C96_items` (Props/AsText.lean): a list field packs a value exactly like the list of its items.
* `C96_reread` (Props/AsText.lean): a number, `bool` or `None` in an `ascii` string field of a size that its text fits
  in, with padding and strip bytes that are no letters, digits or minus signs: packing succeeds, and the field unpacks
  to that text.
* `C96_distinct` (Props/AsText.lean): no two of the numbers, `bool`s and `None` have the same text, so that what was
  packed can be told from the text – but a text may be the same as theirs.
* `C96_bytes` (Props/AsText.lean): bytes in a list field of unsigned bytes are packed as they are; they come back as
  the list of their numbers.
* `C96_refuted` (Props/AsText.lean): C96 in full – a value that is packed without an exception is the one that is
  unpacked – does not hold: -7 comes back as the text '-7', `None` is packed as the text 'None', and the bytes 1, 2 in
  a list of integers come back as a list.

### C97 Ranges are compared, sorted and concatenated consistently (partial)

SequentialRange objects are ordered: a < b is a strict order, a > b holds iff b < a, a <= b and a >= b are the
negations of these, a == b iff both contain the same positions; SequentialRangeList.sorted() returns the same ranges
with none before one that is below it, and range lists are concatenated with lists of ranges by + on either side.

*Modelled:* Buffer/RangeOrder.lean

*Proved by:* comparisons by cases; sorting by the absence of inversions of disjoint ranges; uniqueness of the sorted
permutation by induction

*Result:* refuted: of two ranges of which one lies inside the other each is greater than the other; sorting
overlapping ranges may leave inversions; a list + a range list raises AttributeError. Proved for disjoint ranges, with
the exact condition for > and <.

* `C97_compare` (Props/RangeOrder.lean): what the comparisons say about two ranges below `sys.maxsize`: `a < b` iff
  `a` starts and ends before `b`; `a <= b` iff that holds or they are equal; `a > b` and `a >= b` are the negations of
  these.
* `C97_equal` (Props/RangeOrder.lean): `==` of ranges that are not empty says whether they contain the same positions.
* `C97_strict` (Props/RangeOrder.lean): `<` is a strict order: no range is below itself, and what is below something
  below a third is below the third.
* `C97_converse_partial` (Props/RangeOrder.lean): C97, exactly when `a > b` means the same as `b < a`: if the ranges
  are equal or one starts and ends before the other.
* `C97_disjoint_partial` (Props/RangeOrder.lean): of two ranges that are not empty and share no position one is wholly
  before the other, `<` holds exactly in this direction, and the other comparisons are consistent with it.
* `C97_sorted_partial` (Props/RangeOrder.lean): `sorted()` of ranges that are not empty and do not overlap returns the
  same ranges from the lowest to the highest; so does any algorithm that leaves no adjacent inversion.
* `C97_concat` (Props/RangeOrder.lean): a range list `+` a list of ranges is a range list of the ranges of both, in
  this order; its length is the sum of their lengths.
* `C97_refuted` (Props/RangeOrder.lean): C97 is violated: of two different ranges of which one lies inside the other
  each is greater than the other; sorting leaves `[2:4], [0:8], [1:3]` as they are although `[1:3] < [2:4]`; a list
  `+` a range list raises `AttributeError`, whatever they contain.

### C98 A bit view of a bit view shows what the view of its bytes shows (partial)

BitView(w, start, stop) of a view w (which OutputBuffer.set makes of every value that is a bit array already) has the
length, the bytes, the bit string, the elements and the slices of BitView(w.to_bytes(), start, stop), raises where
that raises, and its to_bytearray() is the same bytearray; so OutputBuffer.set(w, ranges) leaves the output that
OutputBuffer.set(w.to_bytes(), ranges) leaves.

*Modelled:* Buffer/NestedView.lean

*Proved by:* induction over the nesting: bits of the outer view as a window of the inner one's bits filled to whole
bytes

*Result:* refuted: the element after the last is 0 where that of the view of the bytes raises IndexError (it reads
what lies behind the inner view), and to_bytearray of a view that starts at a whole byte gives a view instead of a
bytearray. Proved for everything else: bytes, bit string, elements within the length, slices, and OutputBuffer.set at
all positions.

* `C98_bytes` (Props/NestedView.lean): the bytes of a nested view are its bits, filled up to whole bytes.
* `C98_index_partial` (Props/NestedView.lean): `view[k]` of a nested view, for an offset within it.
* `C98_slice` (Props/NestedView.lean): slices of a nested view are the slices of its bits; reversed bounds raise
  `AssertionError`.
* `C98_same_partial` (Props/NestedView.lean): a view of a view cannot be told from the view of the inner view's bytes
  by its length, its iteration, its `to_bitstr`, its elements within its length, or any slice.
* `C98_to_bytearray_partial` (Props/NestedView.lean): what `to_bytearray` of a view of a view gives holds the bytes
  that `to_bytearray` of the view of its bytes gives – as a view, not a `bytearray`, when the outer view starts at a
  whole byte.
* `C98_output` (Props/NestedView.lean): an output given a view as value – however the view is nested, wherever it
  starts – ends as if given its bytes, or raises the same.
* `C98_refuted` (Props/NestedView.lean): C98 in full: no operation tells a view of a view from the view of its bytes.
  Refuted: the element after the last is read through to what lies behind the inner view
  (`BitView(BitView(b"ab")[0:1])` is one byte long; its `[1]` is 0 where that of `BitView(b"a")` raises `IndexError`),
  and `to_bytearray` gives a view.

### C99 Packing an object packs the objects in it in place (proved)

After a successful pack() of a Buffer, the Buffer in every field of a nested Buffer type that is packed, and every
Buffer in a packed list of Buffers, is in the state in which its own pack() leaves it (its set_before_pack fields hold
the values just computed), in the same place and order; every other field without set_before_pack, and every attribute
that is not a field, is as it was.

*Modelled:* Buffer/Deep.lean, Buffer/Engine.lean

*Proved by:* invariant of the packing loop over the cache: a pack node that is done has left its field as packing
alone leaves it

*Result:* objects are values in this model: an object that occurs in two places of the tree is not covered. A field
with a pack_if condition is either packed in place or left as it was; a field whose condition is constantly true is
packed.

* `C99_object` (Props/DeepAfter.lean): after `pack()` an object in a field is as packing that object alone leaves it –
  or as it was, if the field has a condition.
* `C99_list` (Props/DeepAfter.lean): C99 for lists of objects.
* `C99_others` (Props/DeepAfter.lean): nothing else changes: all other fields without `set_before_pack`, and all
  attributes that are not fields, are as they were.

### C100 The names of the fields of a Buffer do not matter (partial)

Giving the fields of a Buffer class other names, in the class and wherever they are referred to, changes neither
whether pack() succeeds nor the bytes that it returns for the same values, nor the values that unpack() assigns to the
corresponding fields.

*Modelled:* Buffer/Class.lean, a bijection between the fields of two classes

*Proved by:* the layers written by the fields (C42) are the same set in both classes; without common bits the set
determines every bit; success by the exact criterion C81_static

*Result:* refuted twice: fields with bits in common are overwritten by the one whose name is last, and a gap in the
middle of bytes is filled with other bits in one order than in the other (C42). Proved if neither happens; whether
pack() succeeds never depends on the names. Unpacking: per field, except byte arrays of a part of a byte.

* `C100_succeeds` (Props/Renaming.lean): whether `pack()` succeeds does not depend on the names of the fields, for
  static positions.
* `C100_pack_partial` (Props/Renaming.lean): C100 (partial): what `pack()` returns does not depend on the names of the
  fields, for static positions that have no bit in common and leave no dirt behind. Missing: the rest, see
  `C100_refuted`.
* `C100_unpack_partial` (Props/Renaming.lean): C100 (unpacking, partial): fields of two classes that have the same
  codec and position, number of items and a condition that holds get the same value from the same input, whatever
  their names and the other fields are. Selectors must choose alike for the two objects. Missing: byte arrays of a
  part of a byte.
* `C100_gap_refuted` (Props/Renaming.lean): C100 is violated: four bits of byte 0 and four bits of byte 2, as `a` and
  `b` or as `b` and `a`; in one case the gap is filled with ones (C42). The fields have no bit in common.
* `C100_overlap_refuted` (Props/Renaming.lean): C100 is violated: if two fields have bits in common then the one whose
  name is last wins. These leave no dirt behind.

### C101 A struct can be extended at its end (partial)

If a Struct class has the fields of another one followed by further fields with new names, then whatever it reads the
shorter class reads from the same stream too, with the same values in the fields they share, stopping where the
further fields begin; it raises whatever the shorter class raises; the bytes of its objects are those of the shorter
object with the same values followed by those of the further fields, and likewise the sizes.

*Modelled:* Struct/Schema.lean, two classes of one class table

*Proved by:* lockstep of the two readers over the shared fields (same stream, attributes equal apart from the new
names), by induction over fields, marshals and the nesting depth

*Result:* refuted if a struct nested in the shorter class has a ReadPointer to a name that only the longer class has:
the pointer resolves in the outermost struct (C27). Proved if no pointer, function or predicate of the shorter class
and the classes nested in it refers to the new names.

* `C101_old_reader` (Props/Extend.lean): C101 (reading by the old class): whatever the new class can read, the old
  class can read from the same stream, with the same values of all attributes that are not new; it stops where the new
  fields begin.
* `C101_new_reader` (Props/Extend.lean): C101 (reading by the new class): it raises what the old class raises; and if
  that reads an object, the new class goes on with the new fields from where the old one stopped.
* `C101_write` (Props/Extend.lean): C101 (writing): objects with the same values in the old fields: the bytes of the
  new object are the bytes of the old one and then those of the new fields; if the old one cannot be written the new
  one raises the same.
* `C101_sizeof` (Props/Extend.lean): C101 (sizes): the size of the new object is that of the old one and that of the
  new fields.
* `C101_pointer_refuted` (Props/Extend.lean): C101 is violated: the pointer of the nested struct refers to the
  outermost one (C27), which has `z` in the new class only.

### C102 What was read is written back as it was (partial)

If create_from_stream() reads an object, to_bytes() of the object is exactly the bytes that were consumed from the
stream, and sizeof() is their number; so two strings that are consumed to their ends and give the same object are the
same string. This is to hold for every schema; it does for those in which nothing that is read is dropped (no byte
padding, reserved or uncovered bits, no stripping other than of one trailing padding character of strings of fixed
size, no negative lengths, no defaults of absent optional fields, no repeated names).

*Modelled:* Struct/Schema.lean; the grammar of Struct/Wire.lean in between

*Proved by:* every successful read leaves a string of the grammar behind (converse of the round trip), by induction
over marshals, fields and nesting depth; then the theorems that write and measure strings of the grammar

*Result:* refuted for schemas that drop something: byte padding, reserved bits, uncovered bits of positional
containers, strings stripped on both sides, with several padding characters or with a counted length, defaults of
absent optional fields, negative lengths, repeated names, the constant 0.0 (ten witnesses). Proved for all schemas
without these.

* `C102_struct_partial` (Props/WriteBack.lean): C102 (partial): an object that was read from a stream, by classes that
  keep what they read, is written as exactly the bytes that were consumed, and its size is their number. `F.ptrNames`
  are the names used as sizes by read pointers; `F.allowSum` says whether there are arrays that give the sum of the
  sizes of their elements, which need a stream with `tell`. Missing: the schemas that drop something, for which it is
  false (`C102_padding_refuted` and those after it).
* `C102_string_partial` (Props/WriteBack.lean): C102 (from a string): the bytes that the object is written as begin
  the string it was created from.
* `C102_value_partial` (Props/WriteBack.lean): C102 (values): the same for the value that any marshal reads, by
  itself.
* `C102_injective_partial` (Props/WriteBack.lean): C102 (nothing is forgotten): two strings that are consumed to their
  ends and give the same object are the same.
* `C102_padding_refuted` (Props/WriteBack.lean): C102 is violated by byte padding: `BytePadding(1)` reads any byte and
  writes zero.
* `C102_reserved_refuted` (Props/WriteBack.lean): C102 is violated by reserved bits: `BitPadding(4)` reads any bits
  and writes zeros.
* `C102_uncovered_refuted` (Props/WriteBack.lean): C102 is violated by the bits of a positional container that no
  field covers.
* `C102_strip_refuted` (Props/WriteBack.lean): C102 is violated by a string that is stripped on both sides: what was
  stripped from the left is added on the right.
* `C102_characters_refuted` (Props/WriteBack.lean): C102 is violated by a string with two padding characters: the
  first of them is written.
* `C102_counted_refuted` (Props/WriteBack.lean): C102 is violated by a string with a counted length that is stripped:
  the length written is the one after stripping.
* `C102_default_refuted` (Props/WriteBack.lean): C102 is violated by an optional field with another default than
  `None`: the default is written though nothing was read.
* `C102_negative_refuted` (Props/WriteBack.lean): C102 is violated by negative lengths: all of the stream is read and
  its length is written.
* `C102_names_refuted` (Props/WriteBack.lean): C102 is violated by two fields with the same name: the value of the
  second is written twice.
* `C102_zero_refuted` (Props/WriteBack.lean): C102 is violated by the constant 0.0: -0.0 is equal to it.

### C103 A Buffer unpacked from bytes is packed to the same bytes (partial)

If unpack() of a Buffer with static positions succeeds, pack() succeeds, changes no attribute, and returns the input
at every bit that belongs to a field, also where fields overlap; if the fields leave no bit of the declared size out,
pack() returns exactly the bytes that were unpacked, also for objects inside others, and two inputs that give the same
attributes are the same. This is to hold for every such class; it does for those whose fields keep their bits
(integers of all sizes, bytes, 4-byte floats whose conversion can be reverted, strings filled up with their padding,
nested objects, selected classes, lists).

*Modelled:* Buffer/Class.lean, Buffer/Serialize.lean, Buffer/IOBuffer.lean

*Proved by:* C79 gives the value each field was unpacked to; each codec packs that value to the bits it came from; the
layers of C42 put them at the same positions, the last field at a position decides; induction over lists and over the
depth of nesting

*Result:* refuted for bytes that belong to no field (packed as zeros) and for strings that end with stripped bytes
other than the padding (two witnesses). Proved for classes with static positions whose fields keep their bits
(C103_field_partial holds for one field of any class, with positions that depend on other fields). Not proved:
selectors that look at fields of the same object.

* `C103_field_partial` (Props/Unchanged.lean): C103 for one field, wherever it is: the field was unpacked from the
  ranges `M` of the input and is packed at the same ranges, with the value it was unpacked to; its type keeps the
  bits. Then the packed bytes have the bits of the input at these ranges, except where a later field is packed.
* `C103_static_partial` (Props/Unchanged.lean): C103 for a class whose fields occupy static positions `L i` inside the
  input, which may overlap: if an object can be unpacked from the input, it can be packed, and every bit that belongs
  to a field is the bit of the input. Missing: the bits that belong to no field (`C103_gap_refuted`) and the types of
  fields that do not keep their bits (`C103_strip_refuted`, …).
* `C103_whole_partial` (Props/Unchanged.lean): C103 for a whole input: a class of `m > 0` bytes whose fields occupy
  static positions, which may overlap but leave no bit out. An object unpacked from an input that starts with the `m`
  bytes `x` is packed to `x`. Missing: classes that leave bits out (`C103_gap_refuted`) and the types of fields that
  do not keep their bits (`C103_strip_refuted`).
* `C103_injective_partial` (Props/Unchanged.lean): C103, consequence: two inputs of `m` bytes that are unpacked to the
  same attributes are the same.
* `C103_nested_partial` (Props/Unchanged.lean): C103 for objects inside others: a class of `m > 0` bytes whose fields
  keep all the bits of `x` is a class that keeps them (`KeepsBits.buffer`, `KeepsItem.buffer`), so that the theorems
  above apply to the object that contains it, at any depth.
* `C103_gap_refuted` (Props/Unchanged.lean): C103 is violated by bytes that belong to no field: they are packed as
  zeros.
* `C103_strip_refuted` (Props/Unchanged.lean): C103 is violated by texts that end with other bytes that are stripped
  than the padding.

### C104 Fields taken over from a base class are read and written as there (partial)

A class that takes over all fields of another one (by inheritance, or a later version with further fields at any place
in between) and unpacks an input gives every taken-over field the value the original class gives it; if it packs an
object, the original class packs it too, and the two outputs have the same bits except where the new fields are
placed. This is to hold for all fields and for all bits outside the new fields; it does for fields whose condition is
true, and for bits that belong to fields of the original class.

*Modelled:* Buffer/Class.lean, Buffer/Subclass.lean, Buffer/Refs.lean

*Proved by:* taking over as a map of fields and references that keeps the order; references denote the same values in
both classes by induction over the evaluation (mutual simulation of the programs); layers of C42 filtered to the bits
the new fields leave alone

*Result:* refuted for bits that belong to no field (the filling of C42 depends on the order in which the buffer grows)
and for fields whose condition is false (a new field that refers to one makes it appear; two witnesses). Proved for
bits of fields of the original class, and for attributes of fields whose condition is true and that have no after-
unpack function. The order of the original fields must be kept; the original class needs a declared size that is large
enough (else see C57).

* `C104_pack_partial` (Props/Inherit.lean): C104, packing (partial): the class `c'` has the fields of `c` and others,
  and an object of `c'` can be packed. Then an object of `c` with the same attributes can be packed (if the declared
  size of `c`, if there is one, is large enough), and every bit that belongs to a field of `c` and to none of the
  others is the same. Missing: the bits that belong to no field (`C104_gap_refuted`).
* `C104_unpack_partial` (Props/Inherit.lean): C104, unpacking (partial): the class `c'` has the fields of `c` and
  others, and an object of `c'` can be unpacked from the input. Then an object of `c` with the same attributes at the
  start can be unpacked from the same input (if the size of `c` is declared), and every field of `c` whose condition
  holds gets the same value. Missing: fields whose condition does not hold.
* `C104_gap_refuted` (Props/Inherit.lean): C104 is violated at bits that belong to no field: the unused half of byte
  0, which the base class fills with ones (C42), is zero in the derived class.
* `C104_absent_refuted` (Props/Inherit.lean): C104 is violated for fields whose condition is false: a new field that
  refers to such a field makes it appear.

### C105 Ranges and views print what they are (partial)

Two ranges, lists of ranges, bit views or input buffers print the same text if and only if they are equal (same start
and stop; views also the same class and the same bytes underneath).

*Modelled:* Buffer/RangeText.lean

*Proved by:* texts that say where they end: what follows a number is no digit, what follows a byte array is its quote;
induction over lists and over views of views

*Result:* the same text means the same range, list, view or input buffer, in full. Refuted in the other direction: 1
and 1.0 are equal and print differently (C105_refuted); proved for ranges that have integers only, or floats only.

* `C105_range` (Props/RangeText.lean): two ranges print the same text exactly if they have the same start and stop.
* `C105_range_equal` (Props/RangeText.lean): in particular ranges that print the same text are equal for `==`.
* `C105_ranges` (Props/RangeText.lean): two lists of ranges print the same text exactly if they have the same ranges
  in the same order.
* `C105_view` (Props/RangeText.lean): two views print the same text exactly if they are of the same class, have the
  same start and stop, and are over buffers that print the same, that is, byte arrays with the same bytes.
* `C105_input` (Props/RangeText.lean): the same for what an `InputBuffer` prints.
* `C105_view_bits` (Props/RangeText.lean): views of byte arrays that print the same text have the same bits.
* `C105_refuted` (Props/RangeText.lean): C105 is violated in one direction: `SequentialRange(1, 2) ==
  SequentialRange(1.0, 2.0)`, but they print differently.
* `C105_equal_partial` (Props/RangeText.lean): equal ranges print alike if both have integers only (or both floats
  only).

### C106 The names of the fields of a Struct do not matter (partial)

A Struct class and the same class with other names for its fields (read pointers, predicates and user functions of the
class adjusted) have the same bounds on the size, read the same streams as objects with the same values under the new
names, leave the stream at the same place or raise the same exception, and write such objects as the same bytes. This
is to hold whatever the nested structs do; it does if nested structs do not point to renamed fields.

*Modelled:* Struct/Schema.lean

*Proved by:* simulation: two runs whose attributes correspond under the renaming; induction over marshals, fields and
depth

*Result:* reading, writing, sizes and bounds in full for classes read at top level whose nested structs do not point
to renamed fields. Refuted without the latter (C27: pointers refer to the outermost struct; witness).

* `C106_read` (Props/Rename.lean): C106 (reading): the renamed class reads what the class reads: the same exception,
  or an object with the same values under the new names, and the stream at the same place.
* `C106_write` (Props/Rename.lean): C106 (writing): objects with the same values under the two sets of names are
  written as the same bytes, or raise the same.
* `C106_sizeof` (Props/Rename.lean): C106 (sizes): they have the same size.
* `C106_minMax` (Props/Rename.lean): C106 (bounds): the classes have the same least and greatest size.
* `C106_across` (Props/Rename.lean): C106 (across): what one program writes under its names another reads under its
  own: an object is written and read by the renamed class as it is by the class itself.
* `C106_pointer_refuted` (Props/Rename.lean): C106 is violated if nested structs refer to the names: the pointer of
  the nested struct refers to the outermost one (C27).

### C107 The recursion limit matters only where it is exceeded (proved)

Reading, writing, sizeof and min_max_sizeof of a Struct that end without RecursionError under one limit on nested
calls end in the same way (same object and stream position, same bytes, same exception) under every higher limit. For
classes that do not contain themselves a limit as high as the nesting of the classes is enough for reading and for
min_max_sizeof.

*Modelled:* Struct/Schema.lean

*Proved by:* every operation is monotone in what it is told about nested structs; induction over marshals, fields and
depth; for ranked classes induction over the rank

*Result:* in full; the limit is counted in nested structs, not in frames of the interpreter. This also says that the
depth counter of the model stands for nothing but the limit.

* `C107_read` (Props/Limit.lean): C107 (reading): what is read without exceeding a recursion limit is read in the same
  way with every higher one: object, stream and exception.
* `C107_write` (Props/Limit.lean): C107 (writing): the same for the bytes of an object.
* `C107_sizeof` (Props/Limit.lean): C107 (sizes): the same for `sizeof`.
* `C107_minMax` (Props/Limit.lean): C107 (bounds): the same for `min_max_sizeof`.
* `C107_marshal` (Props/Limit.lean): C107 (marshals): the same for reading and writing through any marshal.
* `C107_any` (Props/Limit.lean): C107 (any two limits): two limits that are not exceeded give the same object.
* `C107_enough` (Props/Limit.lean): C107 (classes that do not contain themselves): if the classes have ranks and every
  class uses only classes of smaller rank, every limit above the rank of a class is as good as any other, for reading
  and for the bounds.

### C108 Fields can be grouped into a nested struct without changing the bytes (partial)

Take a Struct class and replace some consecutive fields by one field of a Struct class that has exactly these fields.
Then both classes read every stream alike: the same exception, or the same values (those of the group one level
deeper) and the stream left at the same place. Objects with the same values are written as the same bytes and have the
same sizeof, and the classes have the same min_max_sizeof as long as its minimum is within sys.maxsize. Conditions: no
field outside the group has a name of the group or a read pointer, predicate or other function that looks at it;
predicates in the group look at the group only; read pointers in the group name fields outside it. Without the last
condition it is violated: a pointer in a nested struct refers to the outermost struct.

*Modelled:* Struct/Schema.lean

*Proved by:* two runs side by side: attributes agree outside the group, and in the group between the nested object and
the flat one; C107 for the additional level

*Result:* in full under the stated conditions; refuted without the condition on pointers inside the group, and for
min_max_sizeof beyond sys.maxsize (the maximum is clipped, the minimum is not, and adding more fails an assertion).

* `C108_read` (Props/Group.lean): C108 (reading): if the flat class reads a stream without exceeding the recursion
  limit, the class with the nested struct reads it too, with a limit one higher: the same exception, or objects with
  the same values, and the stream at the same place.
* `C108_write` (Props/Group.lean): C108 (writing): objects with the same values in both forms are written as the same
  bytes, or raise the same.
* `C108_sizeof` (Props/Group.lean): C108 (sizes): they have the same size.
* `C108_minMax` (Props/Group.lean): C108 (bounds): if the flat class has a `min_max_sizeof` whose minimum is within
  `sys.maxsize`, the class with the nested struct has the same.
* `C108_pointer_refuted` (Props/Group.lean): C108 is violated for groups with read pointers to fields of the group:
  they then refer to the outermost struct (C27).
* `C108_minMax_refuted` (Props/Group.lean): It is violated for structs of more than `sys.maxsize` bytes: the maximum
  is clipped there, but not the minimum, and adding more then fails the assertion of `MinMax`.

### C109 Where in the stream a struct starts does not matter (proved)

create_from_stream of a Struct class at a position inside an io.BytesIO does what it does on a stream that holds only
the bytes from that position on: the same exception, or an equal object, and the position is advanced by the same
number of bytes. So two streams with the same bytes from their positions on are read alike. This includes arrays whose
size is announced in bytes (they use tell()), selectors that read ahead, padding and truncated input. Violated only if
a function of the user looks at the position.

*Modelled:* Struct/Schema.lean, Struct/Stream.lean

*Proved by:* putting bytes in front of a stream commutes with every read operation, and reading never exchanges the
stream; induction over marshals, fields and depth

*Result:* in full, exceptions included; selector functions and marshals of the user are assumed not to look at the
position (refuted otherwise, which is no fault of the library).

* `C109_offset` (Props/Offset.lean): a struct that starts behind other bytes is read like the same bytes on their own:
  the same exception, or the same object, and as many bytes are taken.
* `C109_same` (Props/Offset.lean): two streams with the same bytes from their positions on are read in the same way.
* `C109_user_refuted` (Props/Offset.lean): C109 is violated if a function of the user looks at the position.

### C110 What follows a struct in the stream does not matter (partial)

If create_from_stream reads an object from a stream, it reads an equal object and takes as many bytes when more bytes
follow in the stream; so what fails with more bytes fails without them, and a struct in the middle of a stream is read
like its bytes alone. Conditions: no BytePadding, bit containers whose last byte is read, lengths of strings that are
not negative. Violated otherwise: padding at the end of the stream is content with fewer bytes, and a string whose
signed length is -1 takes everything that follows.

*Modelled:* Struct/Frame.lean

*Proved by:* frame lemma: a successful read is the same on every longer stream; together with C109 for the middle

*Result:* in full under the stated conditions; refuted for byte padding and for negative lengths.

* `C110_after` (Props/Trailing.lean): if a struct is read from a stream, the same struct is read when more bytes
  follow, and as many bytes are taken. Without `BytePadding`, with bit containers that are read to their last byte,
  and with lengths of strings that are not negative.
* `C110_error` (Props/Trailing.lean): what cannot be read with more bytes to follow cannot be read without them.
* `C110_middle` (Props/Trailing.lean): a struct in the middle of a stream is read like its bytes alone.
* `C110_padding_refuted` (Props/Trailing.lean): C110 is violated by padding at the end of the stream: it is content
  with fewer bytes.
* `C110_negative_refuted` (Props/Trailing.lean): C110 is violated by a string with a signed length: for the length -1
  everything that follows is read.

### C111 Reading looks only at the bytes it takes (proved)

If create_from_stream reads an object and leaves the stream at some position, it reads an equal object and stops at
the same position when the stream ends there, or anywhere after. This holds for every class, also with padding,
negative lengths and selectors that read ahead. For the classes of C110 every stream that has the bytes that were
taken, at any place and with anything before and behind, is read alike. Violated only if a function of the user looks
at bytes it does not take.

*Modelled:* Struct/Schema.lean, Struct/Stream.lean

*Proved by:* cutting the stream behind the place a read ends commutes with every read operation; induction over
marshals, fields and depth; with C109 and C110 for other surroundings

*Result:* truncation in full for all classes; C111_only, any stream with the taken bytes, for the classes of C110.
Selector functions and marshals of the user are assumed to look only at what they take (refuted otherwise, which is no
fault of the library).

* `C111_cut` (Props/Only.lean): if a struct is read from a stream, the same struct is read from every stream that ends
  where the struct ends, or later.
* `C111_only` (Props/Only.lean): whatever else is in the stream, in front of the struct or behind it, does not matter:
  any stream with the bytes that were taken is read in the same way. For the classes of C110.
* `C111_user_refuted` (Props/Only.lean): C111 is violated if a function of the user looks at bytes that it does not
  take.

### C112 Messages in a stream need no separators (partial)

Call bytes a message of a class if create_from_stream reads an object from them and takes them all. No message of a
class is the beginning of another one; bytes are cut into messages of given classes, with anything behind them, in at
most one way, with one list of objects; and messages one after another, whatever is in front of them and behind them,
are read one after another. Conditions as in C110. Violated by BytePadding, which is content with fewer bytes.

*Modelled:* Props/Framing.lean

*Proved by:* from C109 and C110 by induction on the list of messages

*Result:* in full under the conditions of C110; refuted for byte padding.

* `C112_prefix` (Props/Framing.lean): no message of a class is the beginning of another one.
* `C112_split` (Props/Framing.lean): bytes are cut into messages of given classes, with something behind them, in at
  most one way.
* `C112_stream` (Props/Framing.lean): messages one after another, whatever is in front of them and behind them, are
  read one after another.
* `C112_padding_refuted` (Props/Framing.lean): C112 is violated by padding: two bytes are padding of three bytes as
  well as three bytes are.

## Axioms

* Classical.choice, Quot.sound, propext: C01_int_roundtrip, C02_byte_order, C02_decode_value, C03_bytes_roundtrip,
  C03_overflow, C03_read_rejects, C03_write_rejects, C04_float_roundtrip, C05_bitstream_roundtrip, C06_read_bounds,
  C06_write_bounds, C07_bitfields, C07_definition, C08_no_corruption, C09_declared, C09_layout, C09_positional,
  C09_refused, C100_gap_refuted, C100_overlap_refuted, C100_pack_partial, C100_succeeds, C100_unpack_partial,
  C101_new_reader, C101_old_reader, C101_pointer_refuted, C101_sizeof, C101_write, C102_characters_refuted,
  C102_counted_refuted, C102_default_refuted, C102_injective_partial, C102_names_refuted, C102_negative_refuted,
  C102_padding_refuted, C102_reserved_refuted, C102_string_partial, C102_strip_refuted, C102_struct_partial,
  C102_uncovered_refuted, C102_value_partial, C102_zero_refuted, C103_field_partial, C103_gap_refuted,
  C103_injective_partial, C103_nested_partial, C103_static_partial, C103_strip_refuted, C103_whole_partial,
  C104_absent_refuted, C104_gap_refuted, C104_pack_partial, C104_unpack_partial, C105_equal_partial, C105_input,
  C105_range, C105_range_equal, C105_ranges, C105_refuted, C105_view, C105_view_bits, C106_across,
  C106_pointer_refuted, C106_read, C106_sizeof, C106_write, C107_any, C107_enough, C107_marshal, C107_read,
  C107_sizeof, C107_write, C108_pointer_refuted, C108_read, C108_sizeof, C108_write, C109_offset, C109_same,
  C109_user_refuted, C10_peek_then_read, C10_read_ahead_transparent, C110_after, C110_error, C110_middle,
  C110_negative_refuted, C110_padding_refuted, C111_cut, C111_only, C111_user_refuted, C112_padding_refuted,
  C112_prefix, C112_split, C112_stream, C11_leftover_refuted, C11_object, C11_object_refuted,
  C11_selector_transparent_partial, C11_sumArray_refuted, C12_default_partial, C12_mapped_refuted,
  C13_buffer_roundtrip, C13_default_all_refuted, C13_default_padding_refuted, C13_other_values, C13_short_data,
  C13_string_roundtrip, C13_too_long, C14_buffer_partial, C14_exact, C14_left_refuted, C14_overlong_refuted,
  C14_padded_partial, C14_read_exact, C14_written_length, C15_fixedArray_roundtrip, C15_read_count,
  C15_varArray_roundtrip, C15_varArray_too_long, C16_length_ignored, C16_length_refuted, C16_read_and_default_partial,
  C17_empty_elements_refuted, C17_exact_consumption, C17_overshoot, C17_roundtrip_partial, C18_hang_refuted,
  C18_marshal_terminates_partial, C18_terminates_partial, C19_mapping_roundtrip, C19_unknown_code, C19_unknown_key,
  C20_optional_default_refuted, C20_schema_roundtrip_partial, C21_messages, C21_written, C22_marshal_sizeof_partial,
  C22_overlong_refuted, C22_sizeof_partial, C22_subclass_refuted, C23_min_max_partial, C23_pointer_refuted,
  C23_selector_refuted, C24_add, C24_clip_partial, C24_order_partial, C24_sum_partial, C24_text, C25_bits,
  C25_equality, C25_exception_refuted, C25_float_constant_refuted, C25_float_equality, C25_int_equality,
  C25_read_checks, C25_struct_constant_refuted, C25_write_constant, C26_read, C26_read_default, C26_size, C26_write,
  C27_nested_refuted, C27_pointer_string_partial, C28_array_refuted, C28_const_refuted, C28_lost_write_refuted,
  C28_nested_partial, C28_optional, C28_partial, C28_refuted, C28_unset, C29_padding_refuted, C29_positional_refuted,
  C29_truncation_partial, C30_inherited, C30_inherits, C30_lazy, C30_partial, C30_replaces, C30_separate, C30_user,
  C30_user_refuted, C32_to_bytes, C33_overwrite, C33_overwrite_bytes, C34_concat, C34_self_bytes_refuted,
  C34_self_partial, C35_exact, C35_insert_partial, C35_splice_exact, C35_splice_partial, C36_delete_partial,
  C36_shrink_partial, C37_bits, C37_exact, C37_zfill_partial, C38_any_sort_partial, C38_empty_any_sort_partial,
  C38_empty_partial, C38_has_overlaps_partial, C38_sound, C38_sound_any_sort, C39_make, C39_overlaps,
  C40_prefix_partial, C40_slice_exact, C41_bits, C41_exact, C41_gather, C41_gather_short, C41_scatter_partial,
  C41_short, C42_bits, C42_gap_refuted, C42_layout_partial, C43_choice_nested_partial, C43_choice_partial,
  C43_nested_partial, C43_partial, C43_refuted, C43_strings_refuted, C44_declared_partial, C44_static,
  C44_zero_refuted, C45_pack_partial, C45_unpack_partial, C46_exact, C46_pack_partial, C46_round_trip, C46_unpack,
  C46_unpack_partial, C47_bytes_partial, C47_partial, C47_refuted, C48_double_refuted, C48_float_partial, C49_str,
  C50_bytes_partial, C50_exact, C50_pure, C51_ints, C51_limit, C51_pack, C51_selector_none, C51_strings,
  C51_terminates, C51_unpack, C51_zero_diverges, C51_zero_then, C52_depth, C52_nested_partial, C52_refuted,
  C52_unpack_partial, C54_cycle, C54_exact, C54_terminates, C55_history, C56_bytes, C56_general_partial,
  C56_len_partial, C56_text_refuted, C56_total_partial, C57_beyond, C57_own, C57_partial, C57_refuted, C58_exact,
  C58_fixed_partial, C58_partial, C58_refuted, C59_read_partial, C59_refuted, C59_round_partial, C59_string, C59_type,
  C59_write, C60_none_partial, C60_pack, C60_refuted, C60_unpack_partial, C61_class_size, C61_dynamic, C61_static,
  C62_arithmetic, C62_mixed, C63_defaults, C63_fixed, C63_keep, C63_keep_nested, C64_copy, C64_updated, C64_write,
  C65_exact, C65_int_partial, C66_exact, C66_to_bytearray_partial, C67_nested_bytes, C67_nested_first,
  C67_nested_partial, C67_nested_refuted, C67_nested_second, C67_refuted, C67_repeat, C68_values, C70_partial,
  C70_raises, C70_refuted, C71_enough, C71_partial, C71_refuted, C71_static, C72_partial, C72_refuted, C72_spaces,
  C73_pack, C73_unpack, C74_absent_optional, C74_int_in_float, C74_new_instance, C74_new_refuted,
  C74_optional_refuted, C74_read_partial, C74_written_partial, C75_complete, C75_open_last, C76_pack_partial,
  C76_pack_plain, C76_pack_refuted, C76_unpack_partial, C76_unpack_refuted, C76_unpack_sized, C77_again, C77_equal,
  C77_fresh_partial, C77_kept_refuted, C77_refuted, C77_three_ways, C78_bits_partial, C78_refuted,
  C78_surround_partial, C78_window, C79_bit_int, C79_bytes, C79_explicit_refuted, C79_local_partial, C79_nested,
  C79_selector, C79_struct_int, C79_value, C80_attr_pack, C80_attr_unpack, C80_bit_at, C80_bit_bool, C80_bit_slice,
  C80_byte_at, C80_byte_slice, C80_extreme, C80_extreme_none, C80_extreme_one, C80_len, C80_ranges, C80_total_pack,
  C80_total_refuted, C81_bit_int, C81_bytes, C81_codec, C81_float, C81_int, C81_int_nosize, C81_list, C81_pack,
  C81_raw, C81_static, C81_str, C81_text, C81_truncated_refuted, C81_whole_partial, C82_after, C82_after_refuted,
  C82_arguments, C82_bits, C82_bits_open_refuted, C82_bits_several, C82_bytes, C82_condition, C82_field, C82_position,
  C82_several, C82_single, C82_size, C82_size_refuted, C82_sizes_refuted, C82_static, C82_wrong, C83_clear, C83_count,
  C83_delete_beyond, C83_index, C83_remove, C83_reverse, C84_float, C84_float_as_int, C84_float_int, C84_float_whole,
  C84_format, C84_int_as_float, C84_int_float, C84_integers, C84_own_partial, C84_own_refuted, C84_refuted,
  C84_text_partial, C85_bare, C85_deleted, C85_values, C86_pack, C86_pack_changes, C86_pack_pure, C86_unpack_changes,
  C86_unread, C87_struct, C88_append, C88_atomic_refuted, C88_bytesIO, C88_calls, C88_failed, C88_field_refuted,
  C88_marshal, C88_one_call, C88_reread, C89_const_value_refuted, C89_default, C89_default_refuted,
  C89_default_written, C89_flags, C89_overlap_refuted, C89_positional, C89_positional_layout_partial,
  C89_same_name_refuted, C89_sequential, C89_sequential_layout, C89_sequential_refused, C89_text_refuted, C90_calls,
  C90_count, C90_count_type, C90_items, C90_rest, C90_selector, C90_short_refuted, C90_within_refuted,
  C91_broken_refuted, C91_buffer, C91_call_refuted, C91_cycle, C91_distinct_partial, C91_lines, C91_operators,
  C91_positions_refuted, C91_report, C91_report_refuted, C91_total, C92_final, C92_foreseen, C92_refuted, C93_decoded,
  C93_fresh_refuted, C93_refuted, C93_text_partial, C94_adapter, C94_array, C94_defaults, C94_length_partial,
  C94_length_refuted, C94_min_max, C94_struct, C95_buffer, C95_convert, C95_convert_exact, C95_exact, C95_int_double,
  C95_int_single_partial, C95_int_single_refuted, C95_reread_partial, C95_single, C95_special, C95_survives_partial,
  C95_unspecified_refuted, C95_write, C96_bytes, C96_distinct, C96_items, C96_refuted, C96_reread, C96_text,
  C97_converse_partial, C97_disjoint_partial, C97_sorted_partial, C97_strict, C98_bytes, C98_index_partial,
  C98_output, C98_same_partial, C98_slice, C98_to_bytearray_partial, C99_list, C99_object, C99_others.
* Quot.sound, propext: C106_minMax, C108_minMax, C108_minMax_refuted, C19_duplicate_codes_rejected,
  C24_overflow_refuted, C24_unbounded, C25_assignment, C30_assigned, C30_refuted, C31_compose, C31_slice, C32_index,
  C32_to_bitstr, C34_self_refuted, C35_insert_refuted, C36_delete_refuted, C36_room, C37_zfill_refuted,
  C38_empty_refuted, C38_missed_refuted, C39_byte_length, C39_byte_offset, C39_byte_offset_open, C39_contains,
  C39_max_stop, C40_numeric_exact, C40_numeric_partial, C40_slice_outside, C40_slice_partial, C41_gap_refuted,
  C46_bool, C46_short_refuted, C49_ascii, C53_cached, C53_calls, C53_once, C54_acyclic, C55_context_restored,
  C62_equality, C62_negation, C62_partial, C62_ranges, C63_asserts, C63_remove, C64_read_only, C64_unchanged,
  C65_index, C65_int_refuted, C65_negative_refuted, C69_partial, C69_shared, C73_path, C73_stack, C80_truth,
  C82_bit_ref, C82_bit_slice, C82_byte_slice, C82_index, C82_macros, C83_append, C83_delete, C83_delete_any,
  C83_delete_refuted, C83_delete_short, C83_endless, C83_extend, C83_get, C83_get_before, C83_get_beyond,
  C83_index_refuted, C83_insert, C83_pop, C83_set, C83_set_range, C89_bit_field, C89_bit_index_refuted, C89_const,
  C89_mixed, C89_numbers_refuted, C91_inherited_refuted, C97_compare, C97_concat, C97_equal, C97_refuted, C98_refuted.
* no axioms: C107_minMax, C87_refuted, C95_nan_refuted.
* propext: C12_mapping_ignored, C24_clip_refuted, C30_base_constant, C30_base_lazy, C40_boundary_refuted,
  C40_outside_refuted, C45_unspecified_refuted, C46_endian_refuted, C46_negative_refuted, C50_fraction_refuted,
  C62_identity, C62_none, C62_refuted, C62_value, C64_get, C66_to_bytearray_refuted, C69_refuted, C82_bit_ref_refuted,
  C82_macros_refuted, C83_byte_refuted, C83_get_refuted, C83_set_refuted, C87_partial, C89_const_class_refuted.
