{
 "C01": [
  "Struct/Numeric.lean (`NumFmt`, `structPackInt`, `structUnpackInt`, `numWrite`, `numDecode`)",
  "positional base-256 digits; induction over the size; the range of the format gives injectivity."
 ],
 "C02": [
  "Struct/Numeric.lean (`NumFmt`, `structPackInt`, `structUnpackInt`, `numWrite`, `numDecode`)",
  "the specification is the digit sum modulo 2^(8·size) with two's complement; byte k is compared with the k-th digit."
 ],
 "C03": [
  "Struct/Numeric.lean (`NumFmt`, `structPackInt`, `structUnpackInt`, `numWrite`, `numDecode`)",
  "case analysis of every branch of write and read; decoding followed by encoding is the identity on byte strings of the right length."
 ],
 "C04": [
  "Struct/Numeric.lean (`FloatConv`)",
  "the conversion between binary64 and binary32 is a parameter; its law is a hypothesis; the bytes are the digits of the bit pattern."
 ],
 "C05": [
  "Struct/BitIO.lean (`BitIO.read`, `BitIO.write`, `seek`)",
  "a buffer is its little-endian number; writing adds the masked value shifted by the position; induction over the list of writes."
 ],
 "C06": [
  "Struct/BitIO.lean (`BitIO.read`, `BitIO.write`, `seek`)",
  "both loops shown to stay within the bytes that the guard admits."
 ],
 "C07": [
  "Struct/BitIO.lean, Struct/Schema.lean (`writeBits`, `readBits`, `bitContainerInit`)",
  "the specification is the weighted sum of the values; induction over the list of fields on top of C05."
 ],
 "C08": [
  "the same as C07",
  "consequence of the layout: each field reads its own digits whatever the neighbours hold."
 ],
 "C09": [
  "Struct/Schema.lean (`PBitF`, positional containers)",
  "bitwise extensionality: bit k of a value is at `slicePos slices k`; induction over slices and fields; the declaration checks are characterised separately."
 ],
 "C10": [
  "Struct/Stream.lean (`ahead`, `read`)",
  "refinement of a read-ahead stream to its remaining bytes; induction over the reads."
 ],
 "C11": [
  "Struct/Schema.lean (function selectors), Struct/Stream.lean",
  "transparency from C10 and the frame lemma (a read depends only on the bytes it consumes); refutations by computation."
 ],
 "C12": [
  "Struct/Schema.lean (`StructSelectorMarshal`)",
  "the model keeps the bug that `self.mapping` is iterated instead of `mapping`; default branch as C11."
 ],
 "C13": [
  "Struct/Schema.lean (marshals of string.py, array.py, padding.py, mapping.py)",
  "round trip from C01 for the prefix and the strip laws; error branches by cases."
 ],
 "C14": [
  "Struct/Schema.lean (marshals of string.py, array.py, padding.py, mapping.py)",
  "length of the written bytes and strip-after-pad laws; refutations by computation."
 ],
 "C15": [
  "Struct/Schema.lean (marshals of string.py, array.py, padding.py, mapping.py)",
  "induction over the list for an arbitrary element marshal that round-trips."
 ],
 "C16": [
  "Struct/Schema.lean (marshals of string.py, array.py, padding.py, mapping.py)",
  "by cases; refutation by computation."
 ],
 "C17": [
  "Struct/Schema.lean (marshals of string.py, array.py, padding.py, mapping.py), Struct/Progress.lean",
  "induction over the remaining announced bytes using the progress lemma."
 ],
 "C18": [
  "Struct/Schema.lean (marshals of string.py, array.py, padding.py, mapping.py), Struct/Progress.lean",
  "every loop step consumes input or stops; `Err.diverges` is unreachable under `NoHang`/`ClsEats`; refutation by computation."
 ],
 "C19": [
  "Struct/Schema.lean (marshals of string.py, array.py, padding.py, mapping.py)",
  "injectivity of the inverted table."
 ],
 "C20": [
  "Struct/Schema.lean, specification Struct/Wire.lean",
  "`Wire` gives the bytes of a value declaratively; write produces them and read accepts them, by mutual induction over marshals, fields and the depth of classes."
 ],
 "C21": [
  "Struct/Schema.lean, specification Struct/Wire.lean",
  "C20 with arbitrary bytes behind; induction over the list of messages."
 ],
 "C22": [
  "Struct/Schema.lean, specification Struct/Wire.lean",
  "induction over the schema: `sizeof` is the length of the wire form."
 ],
 "C23": [
  "Struct/Schema.lean, specification Struct/Wire.lean, Struct/MinMax.lean",
  "induction over the schema: every wire form has a length between the bounds; refutations by computation."
 ],
 "C24": [
  "Struct/MinMax.lean",
  "integer arithmetic."
 ],
 "C25": [
  "Struct/Schema.lean (`ConstField`, `constErr`, `assignErr`), Struct/Init.lean, Struct/Repr.lean, Props/Equality.lean",
  "by cases on the comparison; refutations: structs have no `__eq__`, and the message prints the value; equality of floats: uniqueness of sign, mantissa and exponent, checked against the value of the bit pattern."
 ],
 "C26": [
  "Struct/Schema.lean (`OptionalField`)",
  "by cases on the predicate and the value."
 ],
 "C27": [
  "Struct/Schema.lean (`ReadPointer`), contexts",
  "evaluation of the two-field pattern with arbitrary prefix; refutation by computation with a nested struct."
 ],
 "C28": [
  "Struct/Lazy.lean, Struct/LazyTree.lean",
  "simulation between the lazy and the eager object over all histories of operations; the invariant relates the kept bytes to the fields not yet read. Trees of such objects stand for ordinary values; induction over the classes."
 ],
 "C29": [
  "Struct/Schema.lean, specification Struct/Wire.lean, Struct/Frame.lean",
  "a successful read of a truncated input would, by the frame lemma, also be a successful read of the whole one with fewer bytes."
 ],
 "C30": [
  "Struct/Init.lean (heap, `copy_if_supported`, metaclass `__init__`)",
  "invariants over `prepare_instance`; the copies are new heap objects; cases on the user's `__init__` and inheritance."
 ],
 "C31": [
  "Buffer/BitView.lean",
  "bitwise extensionality."
 ],
 "C32": [
  "Buffer/BitView.lean",
  "bitwise extensionality; induction over the number of bytes."
 ],
 "C33": [
  "Buffer/BitView.lean (`_set_range`, `_copy_to_range`, `_set_byte_bits`)",
  "bitwise: bits of the range are those of the value, all others unchanged; induction over the copied bytes."
 ],
 "C34": [
  "Buffer/BitView.lean (`extend`)",
  "C33 after `_insert_zeros` at the end; aliasing modelled for `a += a`."
 ],
 "C35": [
  "Buffer/BitView.lean (`_insert_zeros`)",
  "list semantics on bits; the shift loop is characterised bit by bit; refutation by computation. Props/InsertExact.lean turns the condition into an equivalence: a witness with one bit set for every bad shape."
 ],
 "C36": [
  "Buffer/BitView.lean (`_del_range`)",
  "list semantics on bits; `C36_room` says exactly when the shift loop runs out of the array."
 ],
 "C37": [
  "Buffer/BitView.lean (`zfill`)",
  "as C35 at the end of the array. Exact appended bits in Props/InsertExact.lean."
 ],
 "C38": [
  "Buffer/Range.lean",
  "pairwise disjointness against adjacent overlaps in any sorted permutation. Lists with empty ranges, where the order is not total, in Props/RangesExact.lean."
 ],
 "C39": [
  "Buffer/Range.lean",
  "sets of bit positions as the specification."
 ],
 "C40": [
  "Buffer/BitRange.lean",
  "the i-th position of the concatenated ranges as the specification; refutations by computation. Exact result over several ranges in Props/BitRangesExact.lean."
 ],
 "C41": [
  "Buffer/IOBuffer.lean",
  "bitwise; induction over the ranges. Exact contents of the gaps in Props/ScatterExact.lean."
 ],
 "C42": [
  "Buffer/Class.lean, Buffer/Engine.lean, Buffer/IOBuffer.lean",
  "invariant over the pack loop: each bit of the output is that of the last field covering it. Exact, gaps included, in Props/ScatterExact.lean."
 ],
 "C43": [
  "Buffer/Class.lean, Buffer/Engine.lean, Buffer/IOBuffer.lean, Buffer/Serialize.lean",
  "C41 and C42 give the bits back to every field; codecs by C45-C51; induction over the depth of nesting."
 ],
 "C44": [
  "Buffer/Class.lean, Buffer/Engine.lean, Buffer/IOBuffer.lean",
  "length of the output after every `set`; padding and assertion by cases."
 ],
 "C45": [
  "Buffer/Serialize.lean",
  "digits as in C02."
 ],
 "C46": [
  "Buffer/Serialize.lean",
  "bits of the number as in C33; refutations by computation."
 ],
 "C47": [
  "Buffer/Serialize.lean, Buffer/IOBuffer.lean",
  "the gathered value is shorter than the codec demands; refutations by computation."
 ],
 "C48": [
  "Buffer/Serialize.lean",
  "as C04; refutation by computation."
 ],
 "C49": [
  "Buffer/Serialize.lean",
  "justify and strip laws for every encoding."
 ],
 "C50": [
  "Buffer/Serialize.lean, Buffer/BitView.lean",
  "bitwise."
 ],
 "C51": [
  "Buffer/Serialize.lean",
  "induction over the list for any element codec with a round trip."
 ],
 "C52": [
  "Buffer/Class.lean, Buffer/Engine.lean, Buffer/IOBuffer.lean, Buffer/Serialize.lean",
  "fuel bound for dereferencing (C54); the list loop either consumes input or ends."
 ],
 "C53": [
  "Buffer/Engine.lean",
  "an invariant over all executions of the evaluation machine: the cache holds the value of the only evaluation."
 ],
 "C54": [
  "Buffer/Engine.lean",
  "the call stack has no repetitions, so its length is bounded by the number of references; a specification of 'reaches itself' on the dependency relation."
 ],
 "C55": [
  "Buffer/Engine.lean",
  "induction over executions: stack and recorded exception after a failure."
 ],
 "C56": [
  "Buffer/Class.lean, Buffer/Engine.lean, Buffer/IOBuffer.lean",
  "the reference graph of the pattern is evaluated symbolically for every payload."
 ],
 "C57": [
  "Buffer/Class.lean, Buffer/Engine.lean, Buffer/IOBuffer.lean, Buffer/Subclass.lean",
  "evaluation of `calc_byte_size` over the own fields; consequences for pack and unpack from C44."
 ],
 "C58": [
  "Buffer/Class.lean, Buffer/Engine.lean, Buffer/IOBuffer.lean",
  "the returned value is the maximum of the ends of the unpacked fields."
 ],
 "C59": [
  "Buffer/Compat.lean",
  "composition of C43/C44 with the stream model; refutation at float sizes."
 ],
 "C60": [
  "Buffer/Class.lean, Buffer/Engine.lean, Buffer/IOBuffer.lean",
  "the pack and unpack loops are shown not to depend on a disabled field."
 ],
 "C61": [
  "Buffer/Class.lean, Buffer/Engine.lean, Buffer/IOBuffer.lean",
  "soundness of `isStatic`: dereferencing gives the same value for every object and input."
 ],
 "C62": [
  "Buffer/Operators.lean",
  "decision logic over all pairs of operands, including Python's method lookup."
 ],
 "C63": [
  "Kwargs.lean",
  "dictionary laws."
 ],
 "C64": [
  "Kwargs.lean",
  "a store of dictionaries with identities; invariant over every sequence of operations."
 ],
 "C65": [
  "Buffer/BitView.lean (`_value_to_value_and_length`)",
  "digits of the number as in C33; refutations by computation. Exact effect, two's complement bit by bit, in Props/IntSlices.lean."
 ],
 "C66": [
  "Buffer/BitView.lean",
  "bitwise; refutation by computation. Equivalence in Props/IntSlices.lean."
 ],
 "C67": [
  "Buffer/Class.lean, Buffer/Deep.lean, Buffer/Engine.lean, Buffer/IOBuffer.lean",
  "a successful pack leaves attributes whose second pack evaluates to the same bytes; with nested objects: two runs of the engine on values that differ in set attributes only give the same results."
 ],
 "C68": [
  "Buffer/Class.lean (`initObj`)",
  "induction over keywords and over fields."
 ],
 "C69": [
  "Buffer/Construct.lean",
  "references with identity; the default is not copied."
 ],
 "C70": [
  "Buffer/Class.lean (`unpackValue`), Buffer/Engine.lean",
  "invariant over the evaluation: no action changes the attribute."
 ],
 "C71": [
  "Buffer/CalcSize.lean, Buffer/Class.lean, Buffer/Engine.lean",
  "the size reference evaluates to the maximum over all fields, pack writes up to the maximum over the packed ones."
 ],
 "C72": [
  "Buffer/Serialize.lean (`packJson`, `unpackJson`, with `json` as a parameter)",
  "reduction to C49; a model of JSON for null, booleans and integers shows that the hypotheses can be met."
 ],
 "C73": [
  "`deref`, `RCtx.recordEx`, `packLoop`, `unpackLoop`",
  "induction over the depth with `runProg_report`; `Blame` is a separate inductive description of the chain"
 ],
 "C74": [
  "Struct/Schema.lean (`Marshal.reprErr`), Struct/Repr.lean",
  "induction over marshals and nesting depth: what can be written or was read satisfies the formats that printing applies; absent optional numbers never do."
 ],
 "C75": [
  "Buffer/Range.lean, Buffer/Class.lean, Buffer/IOBuffer.lean",
  "induction over the ranges for closing, then the layers written by pack."
 ],
 "C76": [
  "Buffer/Class.lean, Buffer/Engine.lean",
  "case analysis of the loops on top of the report theorems of C73; witnesses for the unwrapped exceptions."
 ],
 "C77": [
  "Buffer/Class.lean, Buffer/Engine.lean",
  "two runs of the engine side by side (a relation between the objects that every action keeps), then induction over the loop of unpack; witnesses for a selector that sees an old value and for set_after_unpack."
 ],
 "C78": [
  "Buffer/Class.lean, Buffer/IOBuffer.lean, Props/Surround.lean",
  "simulation: two runs of the engine whose contexts differ only in the parts of the input, for any relation between views that slicing preserves and the unpackers cannot see; induction on the nesting."
 ],
 "C79": [
  "Buffer/Class.lean, Buffer/IOBuffer.lean, Props/Values.lean",
  "inversion of `unpack_spec` (the values of the references) down to the gathered view, then the specifications of gather and of the unpackers."
 ],
 "C80": [
  "Buffer/Class.lean, Buffer/BitRange.lean, Props/RefValues.lean",
  "evaluation of the programs of the references in the plain semantics (`Denotes`), which the engine computes (C53, C54); induction on argument lists."
 ],
 "C81": [
  "Serialize, BitView, Class",
  "Exact set of accepted values per packer, induction over copied bytes with spilling last byte, iff for pack() at static positions; Accepts"
 ],
 "C82": [
  "Buffer/Declare.lean, Props/Declare.lean",
  "exact conditions for each constructor; static values carry over by refinement of programs; witnesses for what fails"
 ],
 "C83": [
  "Buffer/Sequence.lean, Props/Sequence.lean",
  "each method on whole bytes is shown equal to the list function; induction over the search and reverse loops; witnesses for what fails; nontermination: no fuel is enough"
 ],
 "C84": [
  "Struct/Text.lean",
  "texts as lists of characters, bytes literals and decimal numbers as CPython prints them; injectivity by showing that every text says where it ends (a prefix code), by induction over marshals and nesting depth; the decimals of floats against the IEEE value."
 ],
 "C85": [
  "Struct/Schema.lean (`getValue`, `writeFields`, `fieldsSizeof`), Struct/Text.lean",
  "congruence: each function of the fields uses the instance only through the lookups listed by `LooksUp`"
 ],
 "C86": [
  "Buffer/Class.lean, Buffer/Leaves.lean",
  "Two runs are followed side by side (as in C77), for any relation between the objects that every action respects; invariants of the object are the special case of equal objects."
 ],
 "C87": [
  "Struct/Emit.lean",
  "Case analysis; refuted by an empty buffer: the code asks for an attribute read_ahead that is never set (it is called read_ahead_mode), so the write raises AttributeError."
 ],
 "C88": [
  "Struct/Emit.lean",
  "A second model makes the calls of stream.write one by one on an arbitrary stream; induction on marshals and nesting shows that it refines the model of write_to_string."
 ],
 "C89": [
  "Struct/Macros.lean",
  "exact conditions for each macro by induction over the fields; the layout from C07 and C09; witnesses for what fails"
 ],
 "C90": [
  "Buffer/Serialize.lean, Buffer/Class.lean",
  "the loop is compared with a relation that lists the calls one by one; both directions, including endless runs"
 ],
 "C91": [
  "`Buffer/Print.lean`: `RefT.safeRepr`, `RefT.repr`, `bufferRepr`, `resolvedLines`, `reportOutcome`, `cycleLines`",
  "injectivity by induction: the text of a reference tells where it ends; sortedness by induction; refutations by the printed text"
 ],
 "C92": [
  "Buffer/Class.lean, Buffer/Engine.lean",
  "a second class whose selectors are called with a fixed object, run in lock-step: what has been evaluated before a field is its turn (SoFar), which fields a reference asks for (AsksOnly), induction over the loop of unpack; used for the round trip of fields with selectors (C43_choice_partial); witness for a selector that is called too early."
 ],
 "C93": [
  "Struct/LazyText.lean, Struct/Lazy.lean",
  "simulation of C28, with the set of containers still waiting after any operations; the grouped texts join to the flat ones"
 ],
 "C94": [
  "Struct/Schema.lean (`UserM`), Buffer/Compat.lean",
  "instance of the grammar of schemas (C20), whose induction covers user marshals; induction over the fields"
 ],
 "C95": [
  "Struct/Numeric.lean (`ieee`, `floatOfInt`), Buffer/Serialize.lean (`structPackFloat`)",
  "rounding a multiple of a unit rounds to the nearest pattern (`round_nearest`); patterns are ordered like their values"
 ],
 "C96": [
  "`strOf`, `BV.items` in Buffer/Serialize.lean",
  "The text of a value and the items of a value by cases; the string and list packers see nothing else of the value, so the theorems about texts and lists (C49, C51) carry over; digits determine the number."
 ],
 "C97": [
  "Buffer/RangeOrder.lean",
  "comparisons by cases; sorting by the absence of inversions of disjoint ranges; uniqueness of the sorted permutation by induction"
 ],
 "C98": [
  "Buffer/NestedView.lean",
  "induction over the nesting: bits of the outer view as a window of the inner one's bits filled to whole bytes"
 ],
 "C99": [
  "Buffer/Deep.lean, Buffer/Engine.lean",
  "invariant of the packing loop over the cache: a pack node that is done has left its field as packing alone leaves it"
 ],
 "C100": [
  "Buffer/Class.lean, a bijection between the fields of two classes",
  "the layers written by the fields (C42) are the same set in both classes; without common bits the set determines every bit; success by the exact criterion C81_static"
 ],
 "C101": [
  "Struct/Schema.lean, two classes of one class table",
  "lockstep of the two readers over the shared fields (same stream, attributes equal apart from the new names), by induction over fields, marshals and the nesting depth"
 ],
 "C102": [
  "Struct/Schema.lean; the grammar of Struct/Wire.lean in between",
  "every successful read leaves a string of the grammar behind (converse of the round trip), by induction over marshals, fields and nesting depth; then the theorems that write and measure strings of the grammar"
 ],
 "C103": [
  "Buffer/Class.lean, Buffer/Serialize.lean, Buffer/IOBuffer.lean",
  "C79 gives the value each field was unpacked to; each codec packs that value to the bits it came from; the layers of C42 put them at the same positions, the last field at a position decides; induction over lists and over the depth of nesting"
 ],
 "C104": [
  "Buffer/Class.lean, Buffer/Subclass.lean, Buffer/Refs.lean",
  "taking over as a map of fields and references that keeps the order; references denote the same values in both classes by induction over the evaluation (mutual simulation of the programs); layers of C42 filtered to the bits the new fields leave alone"
 ],
 "C105": [
  "Buffer/RangeText.lean",
  "texts that say where they end: what follows a number is no digit, what follows a byte array is its quote; induction over lists and over views of views"
 ],
 "C106": [
  "Struct/Schema.lean",
  "simulation: two runs whose attributes correspond under the renaming; induction over marshals, fields and depth"
 ],
 "C107": [
  "Struct/Schema.lean",
  "every operation is monotone in what it is told about nested structs; induction over marshals, fields and depth; for ranked classes induction over the rank"
 ],
 "C108": [
  "Struct/Schema.lean",
  "two runs side by side: attributes agree outside the group, and in the group between the nested object and the flat one; C107 for the additional level"
 ],
 "C109": [
  "Struct/Schema.lean, Struct/Stream.lean",
  "putting bytes in front of a stream commutes with every read operation, and reading never exchanges the stream; induction over marshals, fields and depth"
 ],
 "C110": [
  "Struct/Frame.lean",
  "frame lemma: a successful read is the same on every longer stream; together with C109 for the middle"
 ],
 "C111": [
  "Struct/Schema.lean, Struct/Stream.lean",
  "cutting the stream behind the place a read ends commutes with every read operation; induction over marshals, fields and depth; with C109 and C110 for other surroundings"
 ],
 "C112": [
  "Props/Framing.lean",
  "from C109 and C110 by induction on the list of messages"
 ]
}