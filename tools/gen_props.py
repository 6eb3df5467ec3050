#!/usr/bin/env python3
"""Writes /verif/properties.jsonl (kept as a script so the text stays easy to edit)."""
import json
R = "src/infi/instruct/"
P = []
def p(id, title, statement, quantifier, why, *anchors):
    P.append(dict(id=id, title=title, statement=statement, quantifier=quantifier,
                  why_tests_cant=why, anchors=[R + a for a in anchors]))

p("C01", "Integer marshals round-trip",
  "For each integer marshal (UB/SB/UL/SL/UN/SN Int 8/16/32/64) and every integer in the range of its format, create_from_string(write_to_string(v)) returns v and write_to_string emits exactly `size` bytes.",
  "all 24 formats, both host byte orders, all representable integers, any bytes following in the stream",
  "2^64 values per format; tests only sample a few",
  "numeric.py:NumericMarshal.create_from_stream", "numeric.py:NumericMarshal.write_to_stream")
p("C02", "Integer marshals have the documented byte order and sign encoding",
  "Byte k written by a big-endian (little-endian) marshal is the (size-1-k)-th (k-th) base-256 digit of the value modulo 2^(8*size); signed marshals use two's complement. Decoding yields the unique in-range integer congruent to the digit sum.",
  "all formats, all in-range integers, all byte strings of the right length",
  "the claim is about every value/byte string, not samples",
  "numeric.py:UBInt8Marshal..SNInt64Marshal", "numeric.py:NumericMarshal")
p("C03", "Integer marshals reject what they cannot represent",
  "write raises InstructError exactly when the object is not an integer in range (and nothing is returned); read raises NotEnoughDataError exactly when fewer than `size` bytes are available; every `size`-byte string decodes and re-encodes to itself.",
  "all objects, all integers, all byte strings",
  "infinitely many out-of-range integers; every possible byte string",
  "numeric.py:NumericMarshal", "errors.py:NotEnoughDataError")
p("C04", "Float marshals transport IEEE bit patterns in the declared byte order",
  "A 32/64-bit float marshal writes the IEEE bit pattern of the value in the declared byte order and reads the same value back whenever the value is representable in that width.",
  "all bit patterns, all byte orders",
  "2^32/2^64 bit patterns",
  "numeric.py:BFloat32Marshal..NFloat64Marshal")
p("C05", "Bit stream: a sequence of writes is read back by the same sequence of reads",
  "Writing values v1..vn with widths k1..kn into a fresh BitStringIO of enough bytes and then reading widths k1..kn from its bytes returns vi modulo 2^ki, for any alignment; bits are laid out LSB-first; bits outside the written ranges stay zero.",
  "all buffer sizes, all value lists, all width lists",
  "alignment/width/value combinations are unbounded",
  "utils/bitstringio.py:BitStringIO.write", "utils/bitstringio.py:BitStringIO.read")
p("C06", "Bit stream never reads or writes outside its buffer",
  "BitStringIO.read/write raise IOError exactly when position+bits exceeds the buffer; otherwise they succeed, advance the position by exactly the requested number of bits and keep the buffer length.",
  "all buffers, positions, widths, values",
  "boundary behaviour for every size/position",
  "utils/bitstringio.py:BitStringIO.read", "utils/bitstringio.py:BitStringIO.write", "utils/bitstringio.py:BitStringIO.seek")
p("C07", "BitFields structs round-trip and have the documented LSB-first layout",
  "For a BitFields container of fields with widths k1..kn (sum divisible by 8), the serialized bytes are exactly the little-endian integer sum(vi mod 2^ki << (k1+..+k(i-1))), padding bits are zero, and reading returns vi mod 2^ki for each field.",
  "all lists of widths (sum divisible by 8), all integer values, any following bytes",
  "unbounded number of layouts and values",
  "struct/bit.py:BitFieldListContainer", "struct/bit.py:BitMarshal", "struct/bit.py:BitPaddingMarshal")
p("C08", "An out-of-range bit field value never corrupts its neighbours",
  "Whatever integer (too large or negative) is stored in one bit field, every other field of the same container reads back the value that was stored in it.",
  "all layouts, all integer values",
  "unbounded value space; tests use in-range values",
  "struct/bit.py:BitFieldListContainer.write_fields", "utils/bitstringio.py:BitStringIO.write")
p("C09", "Positional bit fields (Bits[...] slices) round-trip and occupy exactly their slices",
  "For BitFields whose fields are given by pairwise disjoint bit slices, bit j of slice s of a field holds the corresponding bit of the value (slices listed low part first), all bits outside the slices are zero, and reading returns each value modulo 2^(total slice width).",
  "all sets of disjoint slices inside the container, all values",
  "unbounded number of slice layouts",
  "struct/bit.py:PositionalBitMarshal", "struct/bit.py:PositionalBitFieldListContainer")
p("C10", "Read-ahead is transparent",
  "Any sequence of reads in read-ahead mode followed by any sequence of reads in normal mode on a ReadAheadStream returns, in normal mode, exactly the bytes the underlying stream would have returned from its original position; read-ahead streams may be nested.",
  "all streams, all sequences of read sizes, any nesting depth",
  "unbounded histories of reads",
  "utils/read_ahead_stream.py:ReadAheadStream")
p("C11", "Function selectors peek without consuming",
  "Reading through a FuncStructSelector yields the same object and leaves the stream at the same place as reading directly with the struct class the function selects, whatever the function peeked at, provided the struct reads at least the peeked bytes; otherwise InstructError is raised. The function given to SelectStructByFunc gets the object that contains the field, with the attributes read before it.",
  "all selector functions, all struct classes, all streams",
  "quantifies over user functions and all inputs",
  "struct/selector.py:FuncStructSelectorMarshal", "struct_macros.py:SelectStructByFunc")
p("C12", "StructSelector reads the struct class mapped to the key in the stream",
  "StructSelector(key_marshal, mapping, default) reads with mapping[key] when the peeked key is in mapping, with default otherwise, and raises InstructError when there is neither.",
  "all mappings, keys, streams",
  "must hold for every mapping and input",
  "struct/selector.py:StructSelectorMarshal")
p("C13", "Length-prefixed strings and buffers round-trip",
  "VarSizeBuffer: reading what was written returns the same bytes for every byte string whose length fits the size marshal, and writing a longer one raises InstructError. VarSizeString: reading returns the string with padding characters stripped on the configured side(s); a read with fewer bytes than announced raises InstructError.",
  "all byte strings, all size marshals, padding sets and directions",
  "strings of unbounded length and content",
  "string.py:VarSizeStringMarshal", "string.py:VarSizeBufferMarshal", "string.py:_strip")
p("C14", "Fixed-size strings always occupy exactly their size and round-trip",
  "PaddedString/FixedSizeBuffer of size n always writes exactly n bytes (or raises), and reading returns the original string stripped of padding.",
  "all sizes, paddings, padding directions, byte strings",
  "all strings including over-long ones and all padding directions",
  "string.py:PaddedStringMarshal", "string.py:FixedSizeBufferMarshal", "string_macros.py:PaddedString")
p("C15", "Arrays round-trip element-wise",
  "VarSizeArray and FixedSizeArray: reading what was written returns the same list of elements in the same order and consumes exactly the written bytes; a VarSizeArray whose length does not fit the size marshal raises.",
  "all element marshals of the library (nested to any depth), all lists",
  "unbounded lists and schemas",
  "array.py:VarSizeArrayMarshal", "array.py:FixedSizeArrayMarshal")
p("C16", "A FixedSizeArray only ever writes n elements",
  "Writing a list whose length differs from the declared n raises an error rather than emitting a malformed array.",
  "all n, all lists",
  "every length mismatch",
  "array.py:FixedSizeArrayMarshal", "array.py:VarSizeArrayMarshal.write_to_stream")
p("C17", "SumSizeArray consumes exactly the announced number of bytes",
  "A successful read of a SumSizeArray consumes exactly the announced number of bytes after the size; overshoot raises; reading back what was written returns the same list.",
  "all element marshals, lists, streams",
  "unbounded inputs",
  "array.py:SumSizeArrayMarshal")
p("C18", "Reading terminates on every input",
  "create_from_stream returns or raises on every finite input, for every schema.",
  "all schemas and byte strings",
  "non-termination cannot be observed by a test",
  "array.py:SumSizeArrayMarshal.create_from_stream")
p("C19", "Mapping fields are injective code books",
  "For a mapping field, reading what was written returns the same key; a code that is not in the table or a key that is not in the table raises; tables with duplicate codes are rejected at definition.",
  "all tables, keys, codes",
  "all tables",
  "mapping.py:FixedSizeMappingMarshal")
p("C20", "Any struct schema round-trips",
  "For every struct class built from the library's fields (plain, anonymous, const, optional, bit, positional bit, arrays, strings, mapping, nested structs, selectors, pointers) and every instance whose attributes fit the fields, create_from_string(write_to_string(obj)) gives an object with the same attributes.",
  "all schemas (any nesting depth), all fitting instances",
  "the schema space is infinite",
  "struct/__init__.py:Struct.write_to_stream", "struct/__init__.py:Struct.create_from_stream", "struct/__init__.py:FieldListContainer")
p("C21", "Reading consumes exactly the bytes that were written",
  "When a serialized struct is followed by arbitrary further bytes, reading it leaves the stream exactly at those further bytes, so messages can be concatenated and read back one by one (any number of messages).",
  "all schemas, all sequences of fitting instances, all trailing bytes",
  "unbounded message sequences",
  "struct/__init__.py:Struct.create_from_stream", "struct/__init__.py:FieldListContainer.read_fields")
p("C22", "sizeof equals the number of bytes written",
  "Whenever write_to_string succeeds, sizeof(obj) equals the length of its result.",
  "all schemas and all values that can be written",
  "infinite schema/value space",
  "base.py:MarshalBase.sizeof", "struct/__init__.py:FieldListContainer.sizeof", "string.py:VarSizeStringMarshal.sizeof", "array.py:VarSizeArrayMarshal.sizeof")
p("C23", "min_max_sizeof brackets every serialized size",
  "For every class and every instance that can be serialized, min_max_sizeof().min <= len(bytes) and len(bytes) <= min_max_sizeof().max (or the bound is reported as unbounded).",
  "all schemas and values",
  "infinite schema/value space",
  "base.py:MinMax", "struct/__init__.py:FieldListContainer.min_max_sizeof", "string.py:VarSizeStringMarshal.min_max_sizeof", "array.py:ArrayBase.min_max_sizeof", "struct/selector.py:StructSelectorMarshal")
p("C24", "MinMax arithmetic",
  "MinMax clips to [0, sys.maxsize]; addition is commutative and associative with ZERO_MIN_MAX as unit, keeps min <= max, and a sum with an unbounded operand is unbounded. Two MinMax print alike exactly if they are equal.",
  "all integer bounds, any number of summands",
  "unbounded integers and sums",
  "base.py:MinMax.__new__", "base.py:MinMax.__add__", "base.py:MinMax.__repr__")
p("C25", "Const fields are enforced",
  "Reading succeeds only if the bytes decode to the declared constant (otherwise InstructError), writing always emits the constant whatever happened to the instance, and assigning any other value raises.",
  "all constants, inputs, assignment histories",
  "all histories/inputs",
  "struct/const.py:ConstField", "struct_macros.py:ConstField")
p("C26", "Optional fields appear exactly when set / when the predicate holds",
  "Writing emits an optional field iff its value is not None; reading reads it iff the predicate holds on the fields read so far and leaves the default otherwise; read-after-write is the identity when the predicate agrees with presence and the default is None.",
  "all predicates, values, inputs",
  "quantifies over predicates",
  "struct/optional.py:OptionalField")
p("C27", "ReadPointer takes its value from the struct that contains it",
  "A size given by ReadPointer('x') uses the value of field x of the struct in which the pointer field is declared, as read earlier from the same stream.",
  "all structs, any nesting",
  "nesting depth and contents unbounded",
  "struct/pointer.py:ReadPointer", "struct/__init__.py:Struct.get_updated_context")
p("C28", "Lazy fields are observationally equal to eager fields",
  "For a struct read from a complete input, any sequence of attribute reads, attribute writes, serializations and size queries gives the same results whether the fields are inside Lazy(...) or not.",
  "all field lists, inputs, histories of operations",
  "unbounded operation histories",
  "struct/lazy.py:LazyFieldListContainer", "struct/lazy.py:LazyField")
p("C29", "Truncated input is rejected",
  "Reading any strict prefix of a serialized object raises an error instead of returning an object.",
  "all schemas, values, truncation points",
  "every truncation point of every message",
  "struct/__init__.py:Struct.create_from_string", "padding.py:BytePaddingMarshal", "numeric.py:NumericMarshal", "string.py:VarSizeStringMarshal")
p("C30", "Struct construction sets every field from keyword arguments or its default",
  "After construction each declared field has the keyword value if one was passed and the (copied) declared default otherwise; const fields keep their constant; keywords that are not fields reach the user's __init__, and fields named by the user's __init__ parameters are passed to it as well.",
  "all field lists and keyword sets, any inheritance chain without user initialisers",
  "all keyword subsets and class chains",
  "struct/__init__.py:StructType._create_struct_class_init", "struct/__init__.py:Field.prepare_instance")
p("C31", "BitView slicing selects exactly the requested bits",
  "For every view and every pair of (possibly negative or out-of-range) bit offsets, view[a:b] contains exactly the bits a list slice of the view's bits would contain; slicing slices composes.",
  "all buffers, start/stop offsets in 1/8 steps, all slice bounds",
  "all offsets/alignments",
  "buffer/io_buffer.py:BitView.__getitem__", "buffer/io_buffer.py:BitView._get_range", "buffer/io_buffer.py:BitView._translate_offset")
p("C32", "Iterating a BitView yields its bits in groups of eight",
  "list(view), to_bytes(), view[i] and to_bitstr() all present the same bit sequence: byte i consists of bits 8i..8i+7 of the view, the last byte being zero-extended.",
  "all views (any alignment)",
  "all alignments and contents",
  "buffer/io_buffer.py:BitView.__iter__", "buffer/io_buffer.py:BitView.to_bytes", "buffer/io_buffer.py:BitView.to_bitstr", "buffer/io_buffer.py:BitView._get_byte_bits")
p("C33", "Assigning a same-length bit range overwrites exactly that range",
  "buf[a:b] = view with len(view) = b-a replaces bits a..b by the bits of view, and changes neither other bits nor the length.",
  "all arrays, ranges and values at any bit alignment",
  "all alignments",
  "buffer/io_buffer.py:BitAwareByteArray.__setitem__", "buffer/io_buffer.py:BitAwareByteArray._copy_to_range", "buffer/io_buffer.py:BitAwareByteArray._set_byte_bits")
p("C34", "Concatenation of bit arrays",
  "a + b and a += b contain the bits of a followed by the bits of b for any fractional lengths; a + b leaves both operands unchanged.",
  "all bit arrays",
  "all lengths/alignments",
  "buffer/io_buffer.py:BitAwareByteArray.extend", "buffer/io_buffer.py:BitAwareByteArray.__add__", "buffer/io_buffer.py:BitAwareByteArray._insert_zeros")
p("C35", "Assigning a longer value splices it in (list semantics)",
  "buf[a:b] = view with len(view) > b-a gives bits[:a] + bits(view) + bits[b:]; insert(i, view) gives bits[:i] + bits(view) + bits[i:].",
  "all arrays, positions, values",
  "all alignments; existing tests use mostly-zero data",
  "buffer/io_buffer.py:BitAwareByteArray._set_range", "buffer/io_buffer.py:BitAwareByteArray._insert_zeros", "buffer/io_buffer.py:BitAwareByteArray.insert")
p("C36", "Deleting a bit range removes exactly those bits",
  "del buf[a:b] leaves bits[:a] + bits[b:]; assigning a shorter value leaves bits[:a] + value + bits[b:].",
  "all arrays and ranges",
  "all alignments",
  "buffer/io_buffer.py:BitAwareByteArray._del_range", "buffer/io_buffer.py:BitAwareByteArray.__delitem__")
p("C37", "zfill appends zero bits",
  "zfill(n) leaves the existing bits unchanged and appends zero bits until the length is at least n; it never shortens.",
  "all arrays and lengths",
  "all fractional lengths and buffer contents",
  "buffer/io_buffer.py:BitAwareByteArray.zfill")
p("C38", "Overlap detection is exact",
  "SequentialRangeList.has_overlaps() is true iff two of the ranges share a bit, whatever the order of the list, including open ranges.",
  "all lists of ranges",
  "the comparison used for sorting is only a partial order; all orders/nestings must be covered",
  "buffer/range.py:SequentialRangeList.has_overlaps", "buffer/range.py:SequentialRange.overlaps", "buffer/range.py:SequentialRange.__lt__")
p("C39", "Range list arithmetic",
  "byte_length is the number of selected bits /8 (None iff a range is open), max_stop the least upper bound of the ranges, contains/overlaps agree with the set of positions, and byte_offset(n) is the position just after the n-th selected unit.",
  "all range lists and offsets",
  "unbounded lists",
  "buffer/range.py:SequentialRangeList.byte_length", "buffer/range.py:SequentialRangeList.max_stop", "buffer/range.py:SequentialRangeList.byte_offset")
p("C40", "bits[i] and bits[i:j] select the i-th..j-th bits of the parent range",
  "bytes_ref[...].bits[i:j] denotes exactly bits i..j-1 of the concatenated parent ranges, and anything outside the parent range is rejected with ValueError.",
  "all parent range lists, all i <= j",
  "all parents and bounds",
  "buffer/reference/range.py:BitSliceRangeReference.evaluate", "buffer/reference/range.py:BitNumericRangeReference.evaluate", "buffer/range.py:SequentialRangeList.find_relative_container_index")
p("C41", "Input gather and output scatter are inverse",
  "OutputBuffer.set(value, ranges) followed by InputBuffer.get(ranges) on the result returns the written bits, for any list of disjoint ranges in any order; positions outside the ranges are unchanged (or zero when the buffer grows); a value shorter than the ranges raises ValueError.",
  "all buffers, disjoint range lists, values",
  "unbounded",
  "buffer/io_buffer.py:OutputBuffer.set", "buffer/io_buffer.py:InputBuffer.get")
p("C42", "Buffer.pack lays out every field at its position and zeros elsewhere",
  "For a Buffer class with static positions, bit p of pack() is the corresponding bit of the packed value of the last field (in field order) covering p, and zero if no packed field covers p.",
  "all classes with static positions (any number of fields, any bit ranges), all field values",
  "infinite class space",
  "buffer/buffer.py:Buffer.pack", "buffer/io_buffer.py:OutputBuffer.set")
p("C43", "Buffer round-trip",
  "For a Buffer class whose fields occupy disjoint static positions, unpack(pack(obj)) restores every field, also when the packed bytes are followed by other data.",
  "all such classes, all representable field values, all trailing data",
  "infinite class/value space",
  "buffer/buffer.py:Buffer.pack", "buffer/buffer.py:Buffer.unpack")
p("C44", "Packed size is the declared/static byte size",
  "For a class with static positions len(pack()) = ceil(byte_size); a declared byte_size larger than the fields pads with zeros; a smaller one raises.",
  "all static classes and values",
  "infinite class space",
  "buffer/buffer.py:Buffer.pack", "buffer/buffer.py:BufferType.calc_byte_size")
p("C45", "Integer buffer fields of 1, 2, 4 or 8 bytes honour sign and endianness",
  "int/uint/be/le fields of 1/2/4/8 bytes pack the two's complement representation in the declared byte order, reject out-of-range integers and short buffers, and round-trip.",
  "all in-range integers, endian and sign options",
  "2^64 values",
  "buffer/serialize.py:pack_int", "buffer/serialize.py:unpack_int", "buffer/serialize.py:format_from_struct_int_arguments")
p("C46", "Integer buffer fields of any other width round-trip",
  "An int field of w bits (w not 8/16/32/64) round-trips every integer it accepts, rejects integers that do not fit, and honours sign and endianness.",
  "all widths, all integers",
  "unbounded widths and values",
  "buffer/serialize.py:pack_bit_int", "buffer/serialize.py:unpack_bit_int")
p("C47", "Unpacking a truncated buffer raises",
  "Buffer.unpack raises when the input is shorter than the positions of a field.",
  "all classes and truncated inputs",
  "every truncation point",
  "buffer/buffer.py:Buffer.unpack", "buffer/serialize.py:unpack_bit_int", "buffer/io_buffer.py:InputBuffer.get")
p("C48", "Float buffer fields round-trip",
  "float_field of 4 and 8 bytes packs and unpacks the IEEE representation in the declared byte order.",
  "all representable floats",
  "2^64 bit patterns",
  "buffer/serialize.py:pack_float", "buffer/serialize.py:unpack_float", "buffer/serialize.py:STRUCT_FLOAT_UNPACKERS")
p("C49", "String buffer fields pad on pack and strip on unpack",
  "str_field packs to exactly its size (left/right/center justified) and unpacking returns the string, for every string that fits and does not begin/end with a padding or strip character on the padded side.",
  "all strings, sizes, justifications",
  "unbounded strings",
  "buffer/serialize.py:pack_str", "buffer/serialize.py:unpack_str", "buffer/macros.py:str_field")
p("C50", "bytearray fields are transported verbatim",
  "bytearray_field returns exactly the bytes at its position, and round-trips; a value shorter than a closed position raises; bits outside the position are not disclosed.",
  "all byte strings and positions",
  "unbounded",
  "buffer/serialize.py:pack_bytearray", "buffer/serialize.py:unpack_bytearray", "buffer/io_buffer.py:BitView.to_bytearray")
p("C51", "List buffer fields round-trip",
  "unpack_list(pack_list(xs)) returns xs for fixed-width integer and nested-buffer elements, with n given or not, and n limits the number of elements.",
  "all lists and element types",
  "unbounded lists",
  "buffer/serialize.py:pack_list", "buffer/serialize.py:unpack_list", "buffer/macros.py:list_field")
p("C52", "Unpacking terminates on every input",
  "Buffer.unpack returns or raises on every finite input for every class.",
  "all classes and inputs",
  "non-termination cannot be tested",
  "buffer/serialize.py:unpack_list")
p("C53", "References are evaluated at most once per context and the cached value is returned",
  "Within one pack/unpack, however often and from wherever a reference is dereferenced, its evaluation completes at most once and every dereference returns that same value.",
  "all reference graphs, all dereference sequences",
  "all graphs and schedules of dereferences",
  "buffer/reference/reference.py:Reference.deref")
p("C54", "Cyclic references are detected, acyclic ones always resolve",
  "Dereferencing terminates for every finite reference graph; if evaluation needs its own value CyclicReferenceError is raised; if the graph is acyclic no CyclicReferenceError can occur.",
  "all finite reference graphs",
  "all graphs",
  "buffer/reference/reference.py:Reference.deref", "buffer/reference/reference.py:CyclicReferenceError")
p("C55", "A failed dereference leaves the context reusable",
  "After any dereference (successful or raising), the call stack and the set of active nodes are as before, and the cache only holds values of completed evaluations; so later dereferences are not affected by earlier failures.",
  "all graphs, all sequences of dereferences with failures",
  "all failure points",
  "buffer/reference/reference.py:Reference.deref")
p("C56", "Length-prefixed dynamic buffers round-trip",
  "A Buffer with a length field set before packing (len_ref / total_size) and a variable-size field positioned by that length packs the right length and unpacks to the same values.",
  "all payloads that fit the length field",
  "unbounded payloads",
  "buffer/reference/total_size.py:TotalSizeReference", "buffer/reference/builtins.py:LengthFuncCallReference", "buffer/field_reference_builder.py:FieldReferenceBuilder")
p("C57", "A subclass's byte_size covers inherited fields",
  "For a subclass of a Buffer with static positions, byte_size is the extent of all fields, inherited ones included, so that pack succeeds and unpack reports the bytes used.",
  "all inheritance chains of static classes",
  "all class chains",
  "buffer/buffer.py:BufferType.__new__", "buffer/buffer.py:BufferType.calc_byte_size", "buffer/buffer.py:Buffer._all_fields")
p("C58", "unpack returns the number of bytes used",
  "unpack returns the position just after the last byte used by any unpacked field.",
  "all classes and inputs",
  "all position lists",
  "buffer/buffer.py:Buffer.unpack", "buffer/reference/total_size.py:TotalSizeReference")
p("C59", "The Buffer-to-Struct adapter behaves like the Buffer",
  "For a fixed-size Buffer, adapter.create_from_stream reads exactly byte_size bytes and equals unpack of them; write_to_stream writes pack(); sizeof equals the number of bytes written.",
  "all fixed-size classes, objects, streams",
  "all classes/streams",
  "buffer/compat.py:StructTypeAdapter")
p("C60", "Conditional buffer fields",
  "A field whose pack_if is false contributes nothing to the output; a field whose unpack_if is false is set to None and does not look at the input; other fields are unaffected.",
  "all classes, conditions, values",
  "all condition combinations",
  "buffer/buffer.py:Buffer.pack", "buffer/buffer.py:Buffer.unpack")
p("C61", "Static position detection is sound",
  "If a position reference is reported static then it evaluates to the same ranges in every context; evaluation of a non-static reference never silently succeeds at class-definition time.",
  "all reference expressions and contexts",
  "all contexts",
  "buffer/reference/reference.py:Reference.is_static", "buffer/buffer.py:BufferType.calc_byte_size")
p("C62", "Only numeric references enter arithmetic",
  "a + b (and the other operators) on references is rejected with TypeError unless both operands are numeric references or numbers; the value of the resulting reference is what Python's operator gives for the values of the operands.",
  "all operand kinds and operators",
  "all operand combinations",
  "buffer/reference/reference.py:Reference.__check_binary_expression_for_numeric")
p("C63", "Keyword helper laws",
  "keep_kwargs_partial lets declaration-time keywords win over call-time ones, copy_defaults_and_override_with_kwargs lets the call win over defaults, copy_and_remove_kwargs removes exactly the named keys.",
  "all keyword dictionaries",
  "all dictionaries",
  "utils/kwargs.py")
p("C64", "Struct contexts are not shared",
  "Deriving a writable copy of a context or an updated context never changes the original context, values set explicitly by the caller win over class context, and lookups of absent keys return the caller's default.",
  "all dictionaries, all update sequences",
  "unbounded update histories",
  "base.py:ReadOnlyContext", "base.py:WritableContext", "struct/__init__.py:Struct.get_updated_context")
p("C65", "Assigning an integer to a bit range",
  "buf[a:b] = x for an integer x that fits the range sets bits a..b to the binary digits of x and changes nothing else; an integer with more digits than the range raises ValueError.",
  "all arrays, ranges and integers",
  "all widths, alignments and magnitudes",
  "buffer/io_buffer.py:BitAwareByteArray._value_to_value_and_length", "buffer/io_buffer.py:BitAwareByteArray._set_range")
p("C66", "to_bytearray agrees with iteration",
  "view.to_bytearray() returns the same bytes as list(view), whatever the alignment of the view.",
  "all views",
  "all alignments",
  "buffer/io_buffer.py:BitView.to_bytearray")
p("C67", "Packing a Buffer is repeatable",
  "Packing an object any number of times gives the same bytes each time, and the values stored in fields with set_before_pack have no influence on them.",
  "all classes whose own functions do not modify the object, all objects, any number of packs",
  "unbounded histories, all classes",
  "buffer/buffer.py:Buffer.pack", "buffer/field_reference_builder.py:FieldReferenceBuilder")
p("C68", "What a new Buffer instance holds",
  "Buffer(**kw) gives every field its keyword or else its default and leaves every other attribute as the class has it; a keyword that names no field raises AssertionError.",
  "all classes, keyword dictionaries and defaults",
  "all classes and keyword combinations",
  "buffer/buffer.py:Buffer.__init__", "buffer/buffer.py:Buffer._all_field_names")
p("C69", "Instances do not share mutable defaults",
  "Two Buffer instances created without a keyword for a field do not share its default object, so that changing the value in one does not change the other.",
  "all classes, defaults and pairs of instances",
  "all classes and instance histories",
  "buffer/buffer.py:Buffer.__init__")
p("C70", "set_after_unpack sets the attribute",
  "After a successful unpack, a field with set_after_unpack=g holds g(value read), other references to the field see the same value, and if g raises, unpack raises.",
  "all classes, functions and inputs",
  "all functions and reference graphs",
  "buffer/field_reference_builder.py:FieldReferenceBuilder.set_field_unpack_value_ref", "buffer/buffer.py:Buffer.unpack")
p("C71", "calc_byte_size() equals len(pack())",
  "obj.calc_byte_size() of an object that can be packed is the number of bytes that obj.pack() returns.",
  "all classes (with and without bases) and objects",
  "all classes and values",
  "buffer/buffer.py:Buffer.calc_byte_size", "buffer/reference/total_size.py:TotalSizeReference.evaluate", "buffer/buffer.py:Buffer.pack")
p("C72", "JSON fields restore their values",
  "A value packed into a json_field is unpacked to the same value, if json.loads(json.dumps(value)) gives it back.",
  "all values, field sizes and inputs",
  "all values and sizes",
  "buffer/serialize.py:pack_json", "buffer/serialize.py:unpack_json", "buffer/macros.py:json_field")
p("C73", "The report of a failed pack or unpack names the chain of references that failed",
  "The call stack kept for the error report is recorded once, by the first dereference that fails: it lists the references being evaluated at that moment, outermost first, each asked for by the evaluation of the one before it, and its last entry is the reference whose own evaluation raised the exception (or asked for a reference already being evaluated). Successful dereferences leave it alone. When pack fails, the recorded stack starts at the pack_if, value or position reference of the field that failed, or is empty because storing the bytes failed; when unpack fails, it starts at one of the references of the field that failed.",
  "every graph of references, every context and reference; every class, object and input for pack and unpack",
  "The stack depends on which of the nested evaluations raised, on the order of except and finally clauses at every level and on the cache; tests see a handful of messages.",
  "buffer/reference/reference.py:Reference.deref", "buffer/buffer.py:Buffer.pack", "buffer/buffer.py:Buffer.unpack")
p("C74", "Printing a Struct instance does not fail",
  "repr(obj) returns a string for every Struct instance the library made or can serialize: a new one, one that was read, one that can be written.",
  "all classes (nested, with arrays, selectors, optional and bit fields), all instances and input bytes",
  "all schemas and values; printing fails for values that tests do not print",
  "struct/__init__.py:Struct.to_repr", "struct/__init__.py:Field.to_repr", "struct/optional.py:OptionalField", "numeric.py:NumericMarshal.to_repr", "array.py:ArrayBase.to_repr")
p("C75", "Open-ended positions take exactly the rest of the packed value",
  "When pack succeeds, the packed value of a field whose position ends with an open range is stored completely: the closed ranges get its first bits in order and the open range all the others, except where a later field overwrites them. A value shorter than the closed ranges makes pack fail, and so does any value if a further range follows the open one.",
  "all classes, objects and fields whose position list has an open range; all packed values",
  "The split depends on the length of the packed value and of every range; the repository's tests have open positions of a single range only.",
  "buffer/field_reference_builder.py:PackAbsolutePositionReference.evaluate", "buffer/range.py:SequentialRange.to_closed", "buffer/io_buffer.py:OutputBuffer.set")
p("C76", "Failures of pack and unpack are reported as InstructBufferError",
  "Whatever goes wrong while a Buffer is packed or unpacked, the exception that the caller sees is InstructBufferError, which names the class and the attribute.",
  "all classes, objects, inputs and exceptions raised inside",
  "every place that can raise has to be inside the right try block, for every kind of exception; tests provoke a few of them",
  "buffer/buffer.py:Buffer.pack", "buffer/buffer.py:Buffer.unpack")
p("C77", "What an object held before does not matter to unpack",
  "Unpacking the same input into two objects of a class that agree outside of the fields (for example a new one and one that was used before) raises the same error or returns the same size, and leaves the same values in all fields.",
  "all classes, inputs and pairs of objects",
  "stale values only show with an object that is used again and an order of evaluation that reads them; tests unpack into new objects",
  "buffer/buffer.py:Buffer.unpack", "buffer/reference/builtins.py:AssignAttrReference", "buffer/macros.py:unpack_selector_decorator", "buffer/reference/after_field.py:AfterFieldReference.evaluate")
p("C78", "Unpacking depends on the bits of the input only",
  "Unpacking two inputs that hold the same bits gives the same object and size or raises the same error, wherever these bits lie: neither the offset of the input in a larger buffer, nor the bit of a byte at which it begins, nor what surrounds it matters, also for nested buffers and lists.",
  "all programs of Buffer classes, all pairs of inputs with the same bits",
  "tests unpack whole byte strings; fractional offsets and surrounding bytes only differ in nested and sliced inputs",
  "buffer/io_buffer.py:BitView.__getitem__", "buffer/io_buffer.py:BitView.to_bytearray", "buffer/io_buffer.py:InputBuffer.get", "buffer/serialize.py:unpack_int", "buffer/buffer.py:Buffer.unpack")
p("C79", "A field is unpacked from the bits at its position and nothing else",
  "After a successful unpack every field whose unpack condition holds is what its type makes of exactly the bits of the input at its position, in the order of the position's ranges: the number with these binary digits, the integer with this representation, these bytes, a nested buffer unpacked from them, or what the selector chose to make of them. The position may depend on other fields and may extend to the end of the input. Two inputs that agree at the position of a field give the same value of the field, whatever the rest.",
  "all Buffer classes with distinct field names whose functions do not look at fields, all inputs, all fields without set_after_unpack",
  "tests compare a few whole objects; they do not show that no other bit of the input leaks into a field, for every position and width",
  "buffer/buffer.py:Buffer.unpack", "buffer/io_buffer.py:InputBuffer.get", "buffer/serialize.py:unpack_int", "buffer/serialize.py:unpack_bytearray", "buffer/macros.py:buffer_field")
p("C80", "References denote what they look like",
  "bytes_ref[k] is byte k, bytes_ref[i:j] the bytes i..j-1 (either bound may be left out), x.bits[k] and x.bits[i:j] the bits of a position of one range, a sum of positions their ranges one after the other; negative or reversed bounds raise AssertionError. len_ref is the number of characters, bytes or items; min_ref and max_ref the first smallest and first largest number; self_ref.x the attribute (when packing) or what the object will have there (when unpacking); total_size the end of the last position, which is the number of bytes packed.",
  "all classes, objects, inputs and indices, in packing and unpacking",
  "tests use a handful of constant positions; expressions of references with other fields as bounds are not tested at their limits",
  "buffer/reference/range.py:ByteSliceRangeReference.evaluate", "buffer/reference/range.py:ByteNumericRangeReference.evaluate", "buffer/reference/range.py:BitSliceRangeReference.evaluate", "buffer/reference/builtins.py:MinFuncCallReference", "buffer/reference/total_size.py:TotalSizeReference.evaluate")
p("C81", "pack() accepts what a field can represent and writes all of it",
  "pack() succeeds exactly for the values that the field's packer can represent in the size of its position (integers in range, encodable texts, lists of acceptable items, objects that can be packed) and raises otherwise; a value that was accepted is written completely, never cut off.",
  "all field types, sizes, attribute values of any type, classes with static positions",
  "every type of value in every type of field at every bit width, including negative numbers of all sizes",
  "buffer/serialize.py:pack_int", "buffer/serialize.py:pack_bit_int", "buffer/serialize.py:pack_float", "buffer/serialize.py:pack_str", "buffer/serialize.py:pack_bytearray", "buffer/serialize.py:pack_list", "buffer/buffer.py:Buffer.pack", "buffer/io_buffer.py:OutputBuffer.set", "buffer/io_buffer.py:BitAwareByteArray._value_to_value_and_length")
p("C82", "Declarations mean what they say or are rejected",
  "bytes_ref[s:e] is accepted exactly if each bound is left out, a non-negative number or a numeric reference and two numbers are in order; bytes_ref[x] exactly for non-negative integers and numeric references (AssertionError for negative ones, TypeError otherwise); with numbers they denote these bytes in every class, and p.bits[i:j] these bits of p. A field macro accepts its arguments exactly if either where alone or where_when_pack and where_when_unpack are given (ValueError/AssertionError otherwise), the position does not fail already when evaluated without an object (that exception is raised), byte_size is no expression, set_after_unpack no reference and unpack_after consists of fields; the field then has this type and these positions, conditions, sizes, counts, order, functions and default, and a position known at declaration has this value for all objects and inputs. A byte_size of zero counts as none. uint/be/le macros give the sign and byte order of their names. Fails: bit slices do not take references (NotImplementedError), open bit slices are accepted but raise whenever used, positions for packing and unpacking of different known sizes are accepted, set_after_unpack raises UnboundLocalError for references, a function as pack_if is never called, byte_size given as an expression raises NotImplementedError, be_int_field(endian='little') is big-endian.",
  "all bounds, references, classes and arguments of the macros",
  "the space of declarations is infinite, and the wrong ones fail only with particular kinds of arguments",
  "buffer/macros.py:int_field", "buffer/macros.py:uint_field", "buffer/macros.py:be_int_field", "buffer/field_reference_builder.py:FieldReferenceBuilder", "buffer/reference/range.py:ByteRangeFactory", "buffer/reference/range.py:BitRangeFactory", "buffer/reference/range.py:BitSliceRangeReference", "buffer/reference/range.py:ByteSliceRangeReference")
p("C83", "Byte arrays with bit positions behave as mutable sequences of bytes",
  "For a BitAwareByteArray over whole bytes (its entire buffer): a[k], a[k]=x (0<=x<256) and del a[k], pop(k) do what they do for a list for every index the list has; insert(k,x) does for every k; append, extend(bytes), index, remove, count, in, reverse and clear do what they do for lists, so every sequence of them does. a[k] behind the end raises IndexError; numbers of more than eight bits raise ValueError. Fails: a[k] and a[k]=x before the beginning mean the first item, del a[k] behind the end removes the last byte and before the beginning the first, a[k]=-2 stores 254; in a view that ends before its buffer does, index(x) for an absent x other than 0 never ends and index(0) finds a position behind the end.",
  "all byte arrays, indices and numbers; all views for the search that never ends",
  "a test tries a few indices; that wrong indices alter data silently and that a search never ends shows only for indices or views no test used",
  "buffer/io_buffer.py:BitView", "buffer/io_buffer.py:BitAwareByteArray")
p("C84", "repr of a Struct instance says what the instance holds",
  "repr(obj) is Class(name=value, ...) with the fields in the order of their declaration, integers in decimal, floats to six decimals; two instances of a class with the same text have equal field values; int_repr_format and float_repr_format in the context of a class or given to to_repr are used for all numbers of its instances.",
  "all classes, nested structs, arrays, strings, mappings, bit fields and all values",
  "that two different instances never print alike is a statement about all pairs of instances and all ways to nest separators, quotes and brackets",
  "struct/__init__.py:Struct.to_repr", "struct/__init__.py:FieldListContainer.to_repr", "numeric.py:NumericMarshal.to_repr", "array.py:ArrayBase.to_repr")
p("C85", "A Struct's bytes, size and text depend only on the values of its fields",
  "to_bytes, sizeof and repr of an instance give the same result (or exception) for two instances of a class whose attributes named by plain, optional and bit fields agree. Other attributes, and instance attributes named like a constant, have no effect. An attribute that was deleted counts as the default declared for its field, and an instance without attributes is written as if every field had its default.",
  "all classes, nesting depths and attribute dictionaries",
  "tests write instances as constructed; they cannot show that no other attribute of an instance leaks into the output",
  "struct/__init__.py:Field.get_value", "struct/__init__.py:FieldListContainer.write_fields", "struct/__init__.py:Struct.sizeof", "struct/const.py:ConstField")
p("C86", "pack and unpack touch only the attributes they have to",
  "The bytes that obj.pack() returns, or the exception it raises, depend only on the attributes of the fields without set_before_pack, on other attributes named in self_ref expressions, and on what the functions given by the user look at. pack() changes only attributes of fields with set_before_pack, unpack() only attributes of fields, also when they raise half-way.",
  "all Buffer classes, all pairs of objects that agree in the attributes looked at, all inputs",
  "A test packs a few objects; it cannot vary every attribute that should have no influence, nor look at every attribute after every possible failure.",
  "buffer/buffer.py:102-146", "buffer/field_reference_builder.py:210-235", "buffer/reference/field_or_attr.py:12-13")
p("C87", "ReadAheadStream passes writes on when nothing is read ahead",
  "stream.write(b) on a ReadAheadStream that is not in read-ahead mode and whose buffer is empty writes b to the stream behind it; with bytes in the buffer it raises IOError and writes nothing.",
  "all streams, buffers and written bytes",
  "No test writes to a ReadAheadStream at all.",
  "utils/read_ahead_stream.py:29-34")
p("C88", "write_to_stream writes what write_to_string returns, or nothing",
  "cls.write_to_stream(obj, stream) calls stream.write with the same chunks whatever the stream; put together they are what write_to_string(obj) returns. If write_to_string raises, write_to_stream raises the same and the stream is as before. An exception of the stream ends the writing and is passed on. What has been written to a BytesIO at some position is read back from there.",
  "all schemas, instances, kinds of streams (also ones that raise), contents and positions",
  "Tests write to a fresh string buffer that never fails and do not look at it after an exception.",
  "struct/__init__.py:98-100,171-174,191-197", "base.py:137-142", "string.py:50-53,70-74", "array.py:31-34,67-71", "struct/bit.py:40-44,99-103")
p("C89", "Struct declarations mean what they say or are rejected",
  "BitFields(...) without positions is accepted exactly if every field has one definite size (0 <= size <= sys.maxsize, not optional) and the sizes are whole bytes together (otherwise InstructError / BitFieldNotInByteBoundry); with positions (Bits[...]) exactly if all fields have positions (AssertionError otherwise), none is without slices (ValueError) or of negative size, and the highest bit used ends a byte; other containers inside are refused. The accepted container writes every field into the declared bits and reads it from there. BitField and Bits[...] refuse slices with open ends and numbers among slices. PaddedString accepts defaults of at most its size, FixedSizeBuffer and FixedSizeArray of exactly their size, and accepted byte strings can be written in exactly the declared number of bytes. ConstField accepts a marshal, a Struct instance as marshal, or a value that is one. Fails: Bits[i] is None and no container accepts it; overlapping slices and numeric fields are accepted in BitFields; defaults and constants that can never be written are accepted; two fields can have one name; ConstField(name, S(...), S) raises NotImplementedError.",
  "all lists of fields, sizes, slices, names, defaults, values and marshals",
  "Tests declare a handful of valid structs; refusals and accepted nonsense are hardly tested.",
  "struct_macros.py:14-75", "struct/bit.py:30-38,51-55,80-97", "string_macros.py:4-21", "array_macros.py:4-7", "padding.py:4-8")
p("C90", "Unpacking a list calls the element unpacker once per item, with the index, the items so far and the rest of the input",
  "Unpacking a list field calls its element unpacker (or unpack_selector) for items 0, 1, 2, … in order, each time with the index, n, the items already unpacked (container) and the input from where the previous item ended; the answer of the selector (a Buffer class, an (item, size) pair or None) makes the item and decides where the next begins. unpack returns exactly the items up to the first point where n items are there or the input is used up, raises exactly what a further call raises, and otherwise does not return. The list has n items, and takes no more bytes than there are.",
  "all element unpackers and selectors (also with items of size zero or None as the size), all n, sizes and inputs",
  "the tests use a handful of selectors on a few inputs; which calls happen depends on all answers so far, and the last two clauses fail only for short inputs or lying selectors",
  "buffer/serialize.py:288-302", "buffer/macros.py:238-252", "buffer/macros.py:283-322", "buffer/serialize.py:254-257")
p("C91", "What references, Buffers and reports of failures print as",
  "repr of a reference never raises. Two references that are built from numbers, fields, self.x, arithmetic and comparisons, num_ref, len_ref, min_ref, max_ref, total_size, byte slices and bits of those print the same text only if they are the same expression; likewise for all other references (positions with several pieces, single bytes, after(), function calls). repr of a Buffer shows all of its fields with their values and fails only if printing a value fails. The InstructBufferError of a failed pack or unpack is always raised and lists, sorted and each once, every resolved reference that prints differently from its value; CyclicReferenceError lists the references being resolved, in order, and the one met again.",
  "all references (of any depth), all classes and instances, all sets of resolved references and their values",
  "no test looks at these texts; that two texts differ is about all pairs of expressions, and the fallbacks hide failures of printing",
  "buffer/reference/reference.py:8-26", "buffer/reference/reference.py:105-113", "buffer/reference/reference.py:250-320", "buffer/reference/func_call.py:24-43", "buffer/reference/builtins.py:11-66", "buffer/reference/range.py:39-40", "buffer/reference/after_field.py:29-30", "buffer/buffer.py:24-36", "buffer/buffer.py:166-169")
p("C92", "A selector sees the values that are unpacked",
  "When an unpack_selector reads fields of the object that are unpacked before its own field, because their names come first or because they are named in unpack_after, it sees the values that these fields have in the finished object: unpack() ends with an object if and only if it does so with every selector called with that finished object instead.",
  "all classes, selectors, inputs, and objects to unpack into",
  "the selector is called in the middle of unpacking, and the order depends on who asks for which field first; tests have one order",
  "buffer/buffer.py:Buffer.unpack", "buffer/macros.py:unpack_selector_decorator", "buffer/reference/builtins.py:AssignAttrReference")
p("C93", "Printing an object with lazy fields",
  "An object read with a class that uses Lazy(...) is printed like the object read with the same class without Lazy(...), except that the fields of a lazy container are shown as <lazy> until some field of the container has been read or assigned or the object has been serialized; printing itself decodes nothing.",
  "all classes with Lazy(...), inputs, and sequences of attribute reads, assignments, serializations and size queries",
  "which containers are shown depends on the whole history of the object, including serializations that fail half-way; tests print one object in one state",
  "struct/lazy.py:LazyField.to_repr", "struct/lazy.py:LazyFieldListContainer.instantiate_if_needed", "struct/__init__.py:FieldListContainer.to_repr")
p("C94", "Marshals written by the user work wherever those of the library do",
  "A subclass of Marshal that writes a value as certain bytes, tells their number in sizeof, and reads the value from every stream beginning with them can be used as a field of a Struct, as element and as length of arrays, and as length of strings: the composite is written as the concatenation, sizeof counts it, and reading gives the values back and leaves the rest of the stream. A Buffer can be such a field through buffer_to_struct_adapter. What a subclass does not define raises NotImplementedError, except min_max_sizeof, which allows every size; a class with such a field then has sys.maxsize as upper bound and the sum of the other minima as lower bound.",
  "for all marshals that meet the contract, all classes made of any number of them, all values, all streams and contexts; for the adapter all Buffer classes with a size",
  "The tests have only one user marshal and no Buffer inside a Struct; the contract is a condition on all values and streams.",
  "base.py:92-139", "array.py:6-75", "string.py:43-63", "struct/__init__.py:23-109", "buffer/compat.py:1-45")
p("C95", "Float fields round to the nearest number",
  "Writing a finite double to a 4-byte float field stores the nearest number of single precision (of two equally near ones the one with an even pattern) with the same sign; it raises OverflowError iff the double is at least half way from the largest number of single precision to 2^128. Infinities and NaNs stay what they are. Reading 4 bytes gives exactly the number they stand for, and writing it again gives the same bytes. Integers are accepted as well: in 8 bytes they become the nearest double, and InstructError is raised iff they are at least half way from the largest double to 2^1024; in 4 bytes they become the nearest number of single precision. Float fields of Buffers pack what those of Structs do. Violated for signalling NaNs, which come back quiet; for integers above 2^53 in 4 bytes, which are rounded twice; and for Buffer fields with endian='unspecified', which store infinity instead of raising.",
  "all doubles, all 4-byte patterns, all integers of any size, byte orders, hosts",
  "tests write 1.5 and the like, which are exact; the errors are at halves, at the largest numbers, in double rounding and in NaNs",
  "numeric.py:20-33", "numeric.py:91-101", "buffer/serialize.py:127-149")
p("C96", "Values of other types in string and list fields come back as they were packed",
  "A str_field packs a number, bool or None exactly like its text, and that text is what unpacking returns (different values have different texts); a list_field packs bytes, bit arrays and texts exactly like the list of their items, and the list is what unpacking returns. In full – a value that pack() accepts is the value that unpack() returns – this does not hold: -7 returns as '-7', a missing value (None) is written as the text 'None', bytes return as a list of integers.",
  "all values, sizes, justifications, padding and strip bytes that are no letters, digits or minus signs",
  "str() and iteration accept almost every type; a test uses the type that the field is meant for",
  "buffer/serialize.py:pack_str", "buffer/serialize.py:pack_list", "buffer/io_buffer.py:BitView.__iter__")
p("C97", "Ranges are compared, sorted and concatenated consistently",
  "SequentialRange objects are ordered: a < b is a strict order, a > b holds iff b < a, a <= b and a >= b are the negations of these, a == b iff both contain the same positions; SequentialRangeList.sorted() returns the same ranges with none before one that is below it, and range lists are concatenated with lists of ranges by + on either side.",
  "all ranges below sys.maxsize, open or closed, empty or not; range lists of any length; any sorting algorithm",
  "the comparisons that functools.total_ordering derives agree with each other on disjoint ranges only, and overlapping ones are rarely compared",
  "buffer/range.py:SequentialRange.__lt__", "buffer/range.py:SequentialRange.__eq__", "buffer/range.py:SequentialRangeList.sorted", "buffer/range.py:SequentialRangeList.__add__", "buffer/range.py:SequentialRangeList.__radd__")
p("C98", "A bit view of a bit view shows what the view of its bytes shows",
  "BitView(w, start, stop) of a view w (which OutputBuffer.set makes of every value that is a bit array already) has the length, the bytes, the bit string, the elements and the slices of BitView(w.to_bytes(), start, stop), raises where that raises, and its to_bytearray() is the same bytearray; so OutputBuffer.set(w, ranges) leaves the output that OutputBuffer.set(w.to_bytes(), ranges) leaves.",
  "all views, nested to any depth, at any bit offsets and of any length; all element offsets, slices, outputs and range lists",
  "the inner view is read byte by byte at offsets relative to its own start and cut by whole bytes once per level, so only nested views at odd offsets with a last byte cut short exercise it; tests pack bit fields at a few positions",
  "buffer/io_buffer.py:BitView.__init__", "buffer/io_buffer.py:BitView._get_range", "buffer/io_buffer.py:BitView._get_byte_bits", "buffer/io_buffer.py:BitView.to_bytearray", "buffer/io_buffer.py:OutputBuffer.set")
p("C99", "Packing an object packs the objects in it in place",
  "After a successful pack() of a Buffer, the Buffer in every field of a nested Buffer type that is packed, and every Buffer in a packed list of Buffers, is in the state in which its own pack() leaves it (its set_before_pack fields hold the values just computed), in the same place and order; every other field without set_before_pack, and every attribute that is not a field, is as it was.",
  "all classes whose set_before_pack functions do not write, all attribute values, nesting to any depth and lists of any length, each nested object occurring once",
  "the effect is on the objects passed in, not on the bytes returned; tests compare the bytes and look at the outermost object at most",
  "buffer/serialize.py:pack_buffer", "buffer/serialize.py:pack_list", "buffer/buffer.py:Buffer.pack")
p("C100", "The names of the fields of a Buffer do not matter",
  "Giving the fields of a Buffer class other names, in the class and wherever they are referred to, changes neither whether pack() succeeds nor the bytes that it returns for the same values, nor the values that unpack() assigns to the corresponding fields.",
  "all classes with fields at static positions, all values, all renamings (and so all orders in which the fields are packed)",
  "the fields are collected with dir() and packed in the alphabetical order of their names, so only writing the class a second time under other names would show a dependence",
  "buffer/buffer.py:BufferType.__new__", "buffer/buffer.py:Buffer.pack", "buffer/buffer.py:Buffer.unpack", "buffer/io_buffer.py:OutputBuffer.set")
p("C101", "A struct can be extended at its end",
  "If a Struct class has the fields of another one followed by further fields with new names, then whatever it reads the shorter class reads from the same stream too, with the same values in the fields they share, stopping where the further fields begin; it raises whatever the shorter class raises; the bytes of its objects are those of the shorter object with the same values followed by those of the further fields, and likewise the sizes.",
  "all classes and lists of further fields (including constants, bit fields, optional fields, nested structs), all streams and attribute values",
  "a class knows nothing of its predecessor; tests exercise one version of each structure",
  "struct/__init__.py:FieldListContainer", "struct/__init__.py:Struct.create_from_stream", "struct/__init__.py:Struct.get_updated_context", "struct/pointer.py:ReadPointer.create_from_stream")
p("C102", "What was read is written back as it was",
  "If create_from_stream() reads an object, to_bytes() of the object is exactly the bytes that were consumed from the stream, and sizeof() is their number; so two strings that are consumed to their ends and give the same object are the same string. This is to hold for every schema; it does for those in which nothing that is read is dropped (no byte padding, reserved or uncovered bits, no stripping other than of one trailing padding character of strings of fixed size, no negative lengths, no defaults of absent optional fields, no repeated names).",
  "all schemas (numbers, floats, strings, arrays of all three kinds, mappings, nested structs, selectors, constants, optional fields, both kinds of bit containers, user-written marshals that do the same), all streams and positions",
  "needs every input string, valid or not, not just the outputs of to_bytes(); round-trip tests start from objects and never see bytes that the library would not write",
  "struct/__init__.py:Struct.create_from_stream", "struct/__init__.py:Struct.write_to_stream", "string.py:_strip", "struct/bit.py:BitFieldListContainer.read_fields", "struct/optional.py:OptionalField")
p("C103", "A Buffer unpacked from bytes is packed to the same bytes",
  "If unpack() of a Buffer with static positions succeeds, pack() succeeds, changes no attribute, and returns the input at every bit that belongs to a field, also where fields overlap; if the fields leave no bit of the declared size out, pack() returns exactly the bytes that were unpacked, also for objects inside others, and two inputs that give the same attributes are the same. This is to hold for every such class; it does for those whose fields keep their bits (integers of all sizes, bytes, 4-byte floats whose conversion can be reverted, strings filled up with their padding, nested objects, selected classes, lists).",
  "all classes with static, possibly overlapping positions; all inputs, aligned to bytes or not, with any data behind",
  "needs every input, valid or not; round-trip tests start from objects and never see bits that the library would not write",
  "buffer/buffer.py:Buffer.pack", "buffer/buffer.py:Buffer.unpack", "buffer/serialize.py:pack_int", "buffer/serialize.py:unpack_str", "buffer/io_buffer.py:OutputBuffer.set")
p("C104", "Fields taken over from a base class are read and written as there",
  "A class that takes over all fields of another one (by inheritance, or a later version with further fields at any place in between) and unpacks an input gives every taken-over field the value the original class gives it; if it packs an object, the original class packs it too, and the two outputs have the same bits except where the new fields are placed. This is to hold for all fields and for all bits outside the new fields; it does for fields whose condition is true, and for bits that belong to fields of the original class.",
  "all classes, all further fields at any position among them and with any place, references and conditions; all objects and inputs",
  "needs arbitrary pairs of classes; tests of inheritance use one pair and compare whole outputs",
  "buffer/buffer.py:BufferType", "buffer/buffer.py:Buffer.pack", "buffer/buffer.py:Buffer.unpack", "buffer/io_buffer.py:OutputBuffer.set")
p("C105", "Ranges and views print what they are",
  "Two ranges, lists of ranges, bit views or input buffers print the same text if and only if they are equal (same start and stop; views also the same class and the same bytes underneath).",
  "all ranges, all lists of them, all views over byte arrays or over other views; positions in integers or in eighths of a byte below 2^45",
  "needs all pairs; the error messages of unpack() are built from these texts and tests look at a few of them",
  "buffer/range.py:SequentialRange.__repr__", "buffer/io_buffer.py:BitView.__repr__", "buffer/io_buffer.py:InputBuffer.__repr__")
p("C106", "The names of the fields of a Struct do not matter",
  "A Struct class and the same class with other names for its fields (read pointers, predicates and user functions of the class adjusted) have the same bounds on the size, read the same streams as objects with the same values under the new names, leave the stream at the same place or raise the same exception, and write such objects as the same bytes. This is to hold whatever the nested structs do; it does if nested structs do not point to renamed fields.",
  "all classes and all ways to rename fields that keep different names different, including constants, optional fields, bit containers and nested structs; all streams, all objects, all depths",
  "names are used for attribute access, as keys of descriptors, by read pointers and by predicates; a test has one set of names",
  "struct/__init__.py:Field.read_fields", "struct/__init__.py:Field.write_fields", "struct/pointer.py:ReadPointer", "struct/const.py:ConstField.prepare_class")
p("C107", "The recursion limit matters only where it is exceeded",
  "Reading, writing, sizeof and min_max_sizeof of a Struct that end without RecursionError under one limit on nested calls end in the same way (same object and stream position, same bytes, same exception) under every higher limit. For classes that do not contain themselves a limit as high as the nesting of the classes is enough for reading and for min_max_sizeof.",
  "all classes, also recursive ones, all marshals, all streams and objects, all pairs of limits",
  "a test runs under one limit and with inputs of some depth",
  "struct/__init__.py:Struct.create_from_stream", "struct/__init__.py:Struct.write_to_stream", "struct/__init__.py:Struct.sizeof", "struct/__init__.py:Struct.min_max_sizeof")
p("C108", "Fields can be grouped into a nested struct without changing the bytes",
  "Take a Struct class and replace some consecutive fields by one field of a Struct class that has exactly these fields. Then both classes read every stream alike: the same exception, or the same values (those of the group one level deeper) and the stream left at the same place. Objects with the same values are written as the same bytes and have the same sizeof, and the classes have the same min_max_sizeof as long as its minimum is within sys.maxsize. Conditions: no field outside the group has a name of the group or a read pointer, predicate or other function that looks at it; predicates in the group look at the group only; read pointers in the group name fields outside it. Without the last condition it is violated: a pointer in a nested struct refers to the outermost struct.",
  "all classes and groups that meet the conditions, all streams, contexts and objects, all recursion limits that the flat class stays within",
  "a test compares one pair of layouts on some inputs",
  "struct/__init__.py:Struct.create_from_stream", "struct/__init__.py:Struct.write_to_stream", "struct/__init__.py:Struct.sizeof", "struct/pointer.py:ReadPointer")
p("C109", "Where in the stream a struct starts does not matter",
  "create_from_stream of a Struct class at a position inside an io.BytesIO does what it does on a stream that holds only the bytes from that position on: the same exception, or an equal object, and the position is advanced by the same number of bytes. So two streams with the same bytes from their positions on are read alike. This includes arrays whose size is announced in bytes (they use tell()), selectors that read ahead, padding and truncated input. Violated only if a function of the user looks at the position.",
  "all classes, also recursive ones, all marshals, all bytes in front, all data, all contexts and recursion limits; functions of the user that do not depend on the place",
  "tests read from position 0 of a string; there are as many positions as streams",
  "struct/__init__.py:Struct.create_from_stream", "array.py:SumSizeArrayMarshal.create_from_stream", "struct/selector.py:StructSelectorMarshal.create_from_stream", "utils/read_ahead_stream.py:ReadAheadStream.read")
p("C110", "What follows a struct in the stream does not matter",
  "If create_from_stream reads an object from a stream, it reads an equal object and takes as many bytes when more bytes follow in the stream; so what fails with more bytes fails without them, and a struct in the middle of a stream is read like its bytes alone. Conditions: no BytePadding, bit containers whose last byte is read, lengths of strings that are not negative. Violated otherwise: padding at the end of the stream is content with fewer bytes, and a string whose signed length is -1 takes everything that follows.",
  "all classes that meet the conditions, all marshals, selectors and user functions included, all data, positions and bytes that follow",
  "tests parse exact inputs; there are infinitely many continuations",
  "struct/__init__.py:Struct.create_from_stream", "string.py:VarSizeStringMarshal.create_from_stream", "padding.py:BytePaddingMarshal.create_from_stream")
p("C111", "Reading looks only at the bytes it takes",
  "If create_from_stream reads an object and leaves the stream at some position, it reads an equal object and stops at the same position when the stream ends there, or anywhere after. This holds for every class, also with padding, negative lengths and selectors that read ahead. For the classes of C110 every stream that has the bytes that were taken, at any place and with anything before and behind, is read alike. Violated only if a function of the user looks at bytes it does not take.",
  "all classes, also recursive ones, all marshals, all data, positions, contexts and recursion limits; functions of the user that look only at what they take",
  "a test cannot vary all the bytes that should not matter",
  "struct/__init__.py:Struct.create_from_stream", "struct/selector.py:FuncStructSelectorMarshal.create_from_stream", "utils/read_ahead_stream.py:ReadAheadStream.read")
p("C112", "Messages in a stream need no separators",
  "Call bytes a message of a class if create_from_stream reads an object from them and takes them all. No message of a class is the beginning of another one; bytes are cut into messages of given classes, with anything behind them, in at most one way, with one list of objects; and messages one after another, whatever is in front of them and behind them, are read one after another. Conditions as in C110. Violated by BytePadding, which is content with fewer bytes.",
  "all classes that meet the conditions, all lists of messages of any classes, all bytes in front and behind",
  "tests parse some sequences of messages; that no other cut exists is a statement about all byte strings",
  "struct/__init__.py:Struct.create_from_stream", "padding.py:BytePaddingMarshal.create_from_stream")
with open("/verif/properties.jsonl", "w") as f:
    for x in P:
        f.write(json.dumps(x) + "\n")
print(len(P))
