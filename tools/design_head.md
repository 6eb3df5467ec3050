# Design of the formal model of infi.instruct

This file is generated by `tools/gen_design.py` from `tools/design_head.md`, `tools/design_rows.json`,
`tools/notes.json`, `properties.jsonl` and the doc comments of the theorems.

The library has two independent halves:

* the **Struct** side (`src/infi/instruct/*.py`, `struct/`): stream based marshals;
* the **Buffer** side (`src/infi/instruct/buffer/`): fields placed at (bit-)positions of a byte buffer,
  resolved through a graph of lazily evaluated references.

Both are modelled in Lean 4, function by function, as total computable functions.

## Layout

* `lean/Verif/Py.lean`, `Bytes.lean`, `Kwargs.lean`, `Struct/*.lean`, `Buffer/*.lean`: the model.  Every definition
  cites the file and lines it models; simplifications are stated there.  Files called `…Lemmas`, `Frame`,
  `Progress` contain only lemmas; `Struct/Wire.lean` is a specification.
* `lean/Verif/Props/*.lean`: the properties.  A theorem `Cnn_…` belongs to property `Cnn`.  The specification it
  uses stands above it or in `Bytes.lean` / `Struct/Wire.lean`; an `example` with a concrete case that meets the
  hypotheses stands below it.
* `seeded/`: wrong programs.  `seeded/mutations.json` lists edits of the model, `tools/mutate.py` applies each
  one to a scratch copy, rebuilds, and records in `seeded/LOG.jsonl` which theorems are lost.

## Conventions

* **Exceptions are values**: `Res α = Except Err α`. `Err` has one constructor per Python exception class that
  the code can raise. Every error branch of the code is a branch of the model.
* **Bytes** are `List UInt8`; Python `int` is `Int` (unbounded) or `Nat` where the code guarantees the sign.
* **Fractional byte offsets.** The Buffer side uses Python floats that are multiples of 1/8. The model counts
  **bits** (`Nat`/`Int`), i.e. offset `1.25` is `10`. Floats represent multiples of 1/8 exactly below 2^50
  bytes; beyond that the model is not claimed.  A whole-valued float and the equal int are the same value, except
  where the code can tell them apart and a property depends on it (C59: `BytesIO.read` of a float).
* **Non-termination** is a value: `Err.diverges` is returned by a loop step that leaves the whole state
  unchanged while its condition still holds (the Python loop would then repeat for ever).
* **Recursion through classes** (a struct field whose marshal is another struct class) goes through a class
  table and a depth counter; exhausting it is `Err.recursion` (Python's `RecursionError`). Theorems hold for
  every depth.
* **Identity.** Values are immutable in the model of marshals and fields.  Where identity matters there is a separate
  model with a heap: construction of struct instances (`Struct/Init.lean`, C30) and contexts (`Kwargs.lean`, C64).
* Python 3 semantics on a 64-bit platform: `sys.maxsize = 2^63 - 1`.
* When the code violates a property of `properties.jsonl`, the property is stated in full as a `def Cnn… : Prop` or
  directly in the theorem, a theorem `…_refuted` proves its negation with a concrete witness, and a theorem
  `…_partial` proves the largest part that does hold.

## Trusted base

* The Lean 4 kernel.  The axioms each theorem depends on are listed at the end of this file (from `#print axioms`):
  at most `propext`, `Classical.choice` and `Quot.sound`.  There are no axioms of our own, no `sorry`, no
  `native_decide`, no `bv_decide`, no `implemented_by`, no `unsafe`, no `partial`.
* The transcription of the Python source into the model definitions.  As a check of it, `lean/Verif/Validate/` evaluates the
  assertions of the tests of the repository in the model: the same declarations, inputs and expected results
  (views, ranges, structs, buffers with the two SES pages).  Each file says which assertions are left out.
* The model of the Python primitives: `int` arithmetic and bit operations; `bytes`/`bytearray` indexing and slicing;
  `struct.pack/unpack` of one number; `io.BytesIO`; `dict`; `sorted` (as a stable insertion sort, or as *any*
  permutation without adjacent inversions in C38); attribute lookup as far as `getattr`/`setattr`/`hasattr` of
  instances, data descriptors and class attributes; method lookup of binary operators.
* Parameters of the model, so that theorems hold for all of them: the byte order of the host and whether C `long` has 8
  bytes; conversion between binary64 and binary32 (`FloatConv`, with the law "narrowing a widened value gives it back"
  as a hypothesis where needed; `ieee` is the conversion of IEEE 754, about which C95 is); text encodings; user functions (predicates, selectors, `__init__`,
  `set_before_pack` callables).

## What is modelled

File | Modelled | Not modelled
---|---|---
`numeric.py`, `numeric_macros.py` | marshals, all formats, what `to_repr` raises and the text it gives (Struct/Text.lean) | -
`string.py`, `string_macros.py`, `array.py`, `array_macros.py`, `padding.py`, `mapping.py`, `mapping_macros.py` | reading, writing, `sizeof`, `min_max_sizeof`, checks at declaration, what `to_repr` raises and the text it gives | -
`base.py` | `MinMax`, `ConstReader`, contexts, subclasses of `Marshal` written by the user (as parameters, `UserM`) | `_shallow_repr`; of `int_repr_format` and `float_repr_format` in contexts only which one is used (Struct/Text.lean), the format itself is a parameter
`struct/__init__.py` | metaclass and construction, reading, writing, `sizeof`, `min_max_sizeof`, updated contexts, what `__repr__` raises (Struct/Repr.lean) and its text (Struct/Text.lean) | old `__str__` of Python 2
`struct/bit.py`, `const.py`, `optional.py`, `pointer.py`, `selector.py`, `lazy.py` | everything, also objects with lazy containers inside other objects, `FixedSizeArray` and `VarSizeArray` | objects with lazy containers in `SumSizeArray`, and the same such object in two places
`struct_macros.py`, `macros.py` | what they accept and build (Struct/Macros.lean) | of the marshals that are not made for bits only numbers are modelled inside `BitFields`
`utils/bitstringio.py`, `utils/read_ahead_stream.py`, `utils/kwargs.py`, `utils/safe_repr.py` | everything (writing: Struct/Emit.lean; safe_repr: Buffer/Print.lean) | -
`errors.py` | one constructor of `Err` per class | messages
`buffer/range.py`, `buffer/io_buffer.py` | everything | `repr` of floats from 2^45 bytes on (Buffer/RangeText.lean)
`buffer/serialize.py` | all packers and unpackers; `json.dumps` and `json.loads` are parameters | `str(value)` of floats, bytes, lists and Buffers
`buffer/reference/*.py` | `deref`, contexts, all reference classes and operators, printing (Buffer/Print.lean) | thread safety
`buffer/field_reference_builder.py`, `buffer/macros.py`, `buffer/buffer.py` | fields, classes, inheritance, construction, `pack`, `unpack`, `calc_byte_size`, `__repr__` (Buffer/Print.lean) | marshals written by the user as elements of lists; what `pack()` does to the attributes of *nested* objects is modelled in Buffer/Deep.lean only: elsewhere only their bytes count
`buffer/compat.py` | everything | `to_repr`
`_compat.py`, tests | – | not modelled (Python 2 support)

