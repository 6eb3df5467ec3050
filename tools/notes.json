{
 "C11": {
  "note": "Transparent when every peeked byte is consumed by the selected struct; the code raises AttributeError on leftovers and SumSizeArray cannot be read inside a selector (refutations proved). C11_object: the object that SelectStructByFunc passes to the function; in a nested struct it is the outermost object, with a _context_ None (C11_object_refuted)."
 },
 "C12": {
  "note": "The mapping is never consulted by the code (selector.py:12-18), so only the default branch can be proved; the mapped branch is refuted."
 },
 "C13": {
  "note": "All directions and padding bytes; with the default text padding of the macro nothing at all can be written or read (C13_default_all_refuted). Exact exceptions for text, lists and other values (C13_other_values)."
 },
 "C14": {
  "note": "Proved for right/both padding of strings that fit; over-long strings and left padding are refuted. C14_exact says exactly which strings and paddings round-trip."
 },
 "C16": {
  "note": "The code does not check the length when writing (refuted); reading and the default are proved."
 },
 "C17": {
  "note": "Exact consumption and overshoot proved in full; the round trip needs non-empty elements, refuted otherwise."
 },
 "C18": {
  "note": "Termination proved for all inputs when elements of SumSizeArrays cannot be read from nothing; refuted otherwise."
 },
 "C20": {
  "note": "Round trip proved for schemas and instances with a wire form (every marshal, nesting, optionals, bit fields); an optional field with a non-None default is refuted."
 },
 "C22": {
  "note": "Proved unless a fixed-size string is over-long or a subclass instance sits in a struct field; both are refuted."
 },
 "C23": {
  "note": "Proved when variable sizes are stored as integers and no StructSelector occurs; pointer-sized strings and StructSelector sums are refuted."
 },
 "C24": {
  "note": "Clipping, commutativity, unit and sums proved while the minima add up to at most sys.maxsize; negative maxima and overflow are refuted."
 },
 "C25": {
  "note": "Read checks, writes and assignment proved; refuted: a constant that is a Struct instance never equals what is read, and building the message of the InstructError can itself fail (constant that cannot be printed: TypeError; assigning a Struct instance: NotImplementedError); a constant NaN is written but rejected when read back, and the constant 0.0 accepts -0.0. What \"decodes to the constant\" means is tied to IEEE 754 values and to Python equality of ints, floats, strings and lists."
 },
 "C27": {
  "note": "Pointer to a field of the same outermost struct proved; inside a nested struct the pointer resolves in the outermost struct (refuted)."
 },
 "C28": {
  "note": "Proved for every class whose lazy containers hold ordinary fields and padding of fixed size (numbers, strings with padding, mappings, arrays, structs of these), every input that the eager class accepts, and every sequence of operations, except size queries when an array is inside. C28_nested_partial: the same for objects of such classes inside other objects and arrays, to any depth, with programs that reach the objects inside through attributes and indices. Refuted in full: bit fields inside Lazy have their default until the container is instantiated and assignments before that are lost, constants inside Lazy raise KeyError, the size of an array inside Lazy never changes."
 },
 "C29": {
  "note": "Proved for regular schemas; BytePadding and positional bit containers accept truncated input (refuted)."
 },
 "C30": {
  "note": "Proved for every class, every keyword and every default, with the copy made for each instance. Refuted in full: a field whose name is already an attribute of the class (a method of Struct such as sizeof) does not get its default, and a keyword-only parameter of a user-written __init__ is not passed although it names a field. Fields inside Lazy get no value at all (C30_lazy)."
 },
 "C34": {
  "note": "Any two distinct arrays; a += a (the same object) raises IndexError (refuted)."
 },
 "C35": {
  "note": "Characterised exactly: insertion is right for all arrays of a shape if and only if the shape satisfies a condition on the fractions (C35_exact, C35_splice_exact); it holds at the end and at byte boundaries of whole-byte arrays, and is refuted elsewhere."
 },
 "C36": {
  "note": "Exact: either the list semantics or IndexError, and which of the two is characterised; the IndexError case is the refutation."
 },
 "C37": {
  "note": "Existing bits and length in all cases; the appended bits are computed exactly (C37_bits) and are all zero if and only if a condition on the fractions holds (C37_exact); refuted otherwise."
 },
 "C38": {
  "note": "Exact for lists without empty ranges, and (with 'starts inside' for 'shares a bit') unless an empty range lies at an end of a non-empty one; a true answer is always justified (C38_sound). Both directions of the full statement are refuted: an empty range inside another is reported, and an empty range at the end of another hides a real overlap."
 },
 "C40": {
  "note": "Exact for bits and prefix slices over any number of ranges: bits[i+1] is the position after bit i and later ranges lose as many bits as were skipped (C40_numeric_exact, C40_slice_exact, C40_slice_outside); the stated property is refuted for the first bit of a further range and for offsets past the end."
 },
 "C41": {
  "note": "Gather, scatter-then-gather, untouched positions and the ValueError in full; zero gaps exactly under a condition on the alignment (C41_exact, an equivalence for ranges that follow each other); the contents of every bit, gaps included, for any closed ranges (C41_bits); the stated property is refuted."
 },
 "C42": {
  "note": "Every bit of pack() is that of the last field covering it, zero elsewhere, for static positions whose written gaps are clean; refuted when a partly covered byte of a later field is grown over earlier ones (the gap keeps non-zero bits); every bit including those gaps is described by C42_bits."
 },
 "C43": {
  "note": "Proved for classes whose positions are fixed and disjoint and whose fields are ints, bit ints, 4-byte floats, stripped strings, bytearrays, nested Buffers and lists of them, at any depth of nesting: unpacking any input that starts with the packed bytes gives the same attributes. C43_choice_partial adds fields and lists whose class is chosen by a function that reads other fields. Classes whose positions depend on other fields are the subject of C56 and of the general theorem round_trip. Refuted as stated: an 8-byte float packs but cannot be unpacked, and a list of strings is unpacked to its first item alone (C43_strings_refuted, C51_strings)."
 },
 "C44": {
  "note": "Length of pack() for static classes and padding/raising for declared sizes; refuted for a declared byte_size of 0, which is not checked."
 },
 "C45": {
  "note": "Packing and unpacking of 1/2/4/8-byte integers for every value and byte order; the 4-byte case without an endian declaration depends on the platform's C long (refuted)."
 },
 "C46": {
  "note": "Non-negative integers of other widths on a buffer with enough bits; negative numbers, short buffers and big-endian declarations are refuted. C46_exact gives the packed bits of every integer at every width, C46_unpack what any buffer unpacks to, and C46_round_trip that a round trip succeeds exactly for the non-negative integers that fit."
 },
 "C47": {
  "note": "Proved for integers of struct widths, floats and fixed byte sizes of text when at least one whole byte of the place lies beyond the end (C47_bytes_partial: any byte-aligned place). Refuted: gathering silently leaves out what is missing, so bytearrays and integers of other widths are read short without an error."
 },
 "C48": {
  "note": "4-byte floats in full; 8-byte floats never unpack (refuted)."
 },
 "C50": {
  "note": "Whole bytes at any bit alignment; positions that end inside a byte are refuted. C50_exact gives the bits of any byte array at any positions, C50_pure when they are the bytes given."
 },
 "C52": {
  "note": "Every dereference ends within the depth of the class (C52_depth); unpack ends for classes whose lists are counted or have elements of non-zero size, also through nested buffers. Refuted for an uncounted list of elements that use no input: the loop never ends."
 },
 "C56": {
  "note": "C56_general_partial covers any class whose packed fields fit computed places; C56_len_partial and C56_total_partial are the len_ref and total_size idioms with the exact wire format, C56_bytes the unconditional bytes payload. Refuted for text whose encoding is longer than its character count: len_ref counts characters and the excess bytes are dropped without an error."
 },
 "C57": {
  "note": "byte_size of a subclass is the extent of the fields it declares itself (C57_own). Refuted as stated: inherited fields after them make pack fail and unpack report too little; a subclass without own fields gets byte_size 0. Proved whenever the inherited fields end within the own extent (C57_partial); otherwise pack raises AssertionError (C57_beyond)."
 },
 "C58": {
  "note": "The returned size is the largest of the ends of the unpacked fields (C58_exact). It ends some unpacked field and bounds every field whose ranges ascend (C58_partial); a declared byte_size is returned as is (C58_fixed_partial). Refuted for a field whose ranges descend: the end of the last range is taken, so input further on is not counted."
 },
 "C59": {
  "note": "Reading, writing and sizeof proved for int byte_size. Refuted as stated: byte_size is a float when the last field ends with a bit range, and BytesIO.read raises TypeError then."
 },
 "C60": {
  "note": "pack: nothing of a disabled field enters the output (C60_pack). unpack: the definition of a disabled field that nothing refers to has no influence on the outcome and its attribute becomes None. Refuted when another field refers to the disabled one: it is unpacked after all and its attribute set."
 },
 "C61": {
  "note": "Positions reported static are the same in every context of every object; class byte_size is computed from them; positions that need the object are never reported static."
 },
 "C62": {
  "note": "Values, equality, mixed operands and ranges are characterised for every pair of operands. Refuted as stated: the check `a and b or c` in the numeric guard lets a non-numeric reference combine with a numeric one, `==` on non-numeric references falls back to object identity, a numeric reference plus a position makes a position list, and unary minus of a non-numeric reference returns the NotImplemented object instead of raising."
 },
 "C65": {
  "note": "Exact effect for all integers (C65_exact); it is the stated one when the digits of the number take as many bytes as the range; short and negative numbers are refuted."
 },
 "C66": {
  "note": "Holds if and only if the view does not start on a byte boundary and end inside a byte (C66_exact); the rest is refuted."
 },
 "C67": {
  "note": "refuted in full: a function that looks at a field which is set later in the same pack sees its old value the first time (C67_refuted), also when the field belongs to a nested object (C67_nested_refuted). Proved for functions that look at no attribute that pack() sets, with nested objects as values (C67_repeat) and with what pack() does to nested objects at any depth (C67_nested_partial); then the bytes are the same in both models (C67_nested_bytes)."
 },
 "C69": {
  "note": "Refuted: every instance holds the object that was given as default (C69_shared); list_field(default=[]) is one list for all instances. Struct fields do copy their defaults (C30_separate). Proved for defaults that cannot be changed."
 },
 "C70": {
  "note": "Refuted as stated: the function is called and its result is what other references see, but the attribute of the object is never assigned and keeps its old value (C70_partial says exactly that). A raising function makes unpack raise (C70_raises)."
 },
 "C71": {
  "note": "Proved for all classes with a size other than 0, and for classes without inherited fields if all fields are packed; in the latter without the condition the size is never too small (C71_enough). Refuted in full: for dynamic classes inherited fields are not counted, fields with a false pack_if are, and if such a field cannot be packed the call raises."
 },
 "C72": {
  "note": "Proved whenever the JSON text fits in the field (C72_partial; such fields also take part in the class round trips C43, C44, C54 and C56 through Fits.json and FitsOpen.json). Refuted in full: a longer text is cut off without an error, 12345 in three bytes comes back as 123."
 },
 "C73": {
  "note": "The text of the message (repr of the references) is not modelled. The full claim is proved for the recorded stack."
 },
 "C74": {
  "note": "Proved for instances that can be written and for instances that were read, for classes whose optional fields can print None; refuted for absent optional numbers, floats and arrays (also right after reading) and for new instances without defaults."
 },
 "C75": {
  "note": "Proved for position lists whose ranges are non-empty and below sys.maxsize."
 },
 "C76": {
  "note": "Refuted as stated: an exception raised while pack_if is evaluated is not wrapped, a declared byte_size that is too small gives AssertionError, and what the calculation of the size raises after unpack is not wrapped. Proved: these are the only exceptions (C76_pack_partial, C76_unpack_partial), so the claim holds for pack of classes without conditions and declared size and for unpack of classes with a size."
 },
 "C77": {
  "note": "Refuted as stated: a selector that reads a field named in unpack_after sees the old value if another field whose name comes first is positioned behind the selected field, and fields with set_after_unpack keep their old value. Proved (C77_fresh_partial, C77_equal, C77_again) when selectors and member functions do not read fields."
 },
 "C78": {
  "note": "Proved for classes without bytearray fields for any two views with the same bits, and for all classes for views that begin at the same bit of a byte and agree up to the end of their last byte (so a window of whole bytes is unpacked like these bytes alone). Refuted for bytearray fields that end inside a byte. Missing: bytearray fields at whole bytes when the alignment differs."
 },
 "C79": {
  "note": "C79_value holds for every codec and position; integers, byte arrays at whole bytes, nested buffers and selectors have corollaries in plain terms. C79_local_partial leaves out byte arrays of a part of a byte (they can show bits behind their end, C78_refuted). C79_explicit_refuted: a nested buffer with byte_size and no selector can be packed but never unpacked."
 },
 "C80": {
  "note": "C80_total_refuted: when packing, total_size also counts fields that are not packed, so it is not the number of bytes that pack returns. bits of positions of several ranges: see C40."
 },
 "C81": {
  "note": "C81_codec, C81_static, C81_bit_int, C81_int_nosize proved; C81_whole_partial covers integers and floats; C81_truncated_refuted: longer texts and byte strings are cut off silently, a number in a bytearray_field is taken for that many zero bytes. C81_text, C81_raw and C81_list say exactly which bytes strings, byte arrays and lists become, hence when something is cut off. str() of floats, bytes, lists and Buffers in string fields is not modelled."
 },
 "C82": {
  "note": "refuted: bit slices with reference bounds, open bit slices, different known sizes, set_after_unpack as a reference, byte_size as an expression, keyword endian of be_int_field"
 },
 "C83": {
  "note": "refuted: indices out of range for getting, setting and deleting (del never raises, C83_delete_any; of an array of less than a byte it leaves a negative length, and len() of an array that was empty raises ValueError from then on, C83_delete_short), negative items, index on views of a part of a buffer"
 },
 "C84": {
  "note": "Exact text for integer classes (C84_integers), floats within half a millionth (C84_float), floats in integer format and integers in float format (C84_float_as_int, C84_int_as_float), injective for everything but floats (C84_text_partial). Refuted: floats show six decimals only, so different instances print alike; the format of a nested class is not used when an outer class has one."
 },
 "C85": {
  "note": ""
 },
 "C86": {
  "note": ""
 },
 "C87": {
  "note": "violated: there is no state in which a write succeeds (C87_refuted); no Struct with a non-empty representation can be written to such a stream (C87_struct)"
 },
 "C88": {
  "note": "violated in one point: after an exception the fields before the one that failed are in the stream (C88_atomic_refuted); C88_failed says exactly what is there, C88_one_call which fields leave nothing of themselves"
 },
 "C89": {
  "note": "refuted: Bits[i], overlapping slices, numbers as bit fields, unchecked defaults and constants, equal names, ConstField with a Struct class as marshal, text as default of strings"
 },
 "C90": {
  "note": "Proved for every element unpacker: which calls happen, with which arguments, and when the loop returns, raises or never ends. Refuted: n is only an upper bound (a short input gives a shorter list without complaint), and the size a selector gives is believed even if it exceeds the input."
 },
 "C91": {
  "note": "Refuted: positions with several pieces print the characters of the repr of a generator, whatever the pieces; a single byte prints as its number; after() and calls of Python functions print as 'repr error' (Context is not imported, func_name does not exist in Python 3); calls of other functions print with unbalanced parentheses; Buffer.__repr__ leaves out inherited fields; a resolved value whose repr raises replaces the InstructBufferError. The distinctness theorem covers the fragment stated first; attribute references (ctx.obj.x) and products and quotients are not in it."
 },
 "C92": {
  "note": "Refuted as stated: if another field whose name comes first is positioned behind the selected field, the selector is called before the fields named in unpack_after are unpacked (C92_refuted). Proved when nothing asks for the field before its turn, with no member functions that change the object, and for fields that are always unpacked (C92_foreseen, C92_final)."
 },
 "C93": {
  "note": "Proved after any sequence of operations for classes whose lazy containers hold ordinary fields and padding. False for bit fields inside Lazy(...), which are printed with their defaults before decoding (C93_refuted). An object made by calling the class cannot be printed at all when a lazy field was not given: KeyError (C93_fresh_refuted)."
 },
 "C94": {
  "note": "Proved for fields, arrays, the adapter, the inherited methods and the bounds. Refuted for lengths of strings: VarSizeString.sizeof passes the string, not its length, to the marshal of the length, so a length of variable size is written and read, but sizeof raises (C94_length_refuted; proved for lengths of constant size). min_max_sizeof of a Struct with a Buffer inside always raises (C94_adapter)."
 },
 "C95": {
  "note": "the conversions are those of IEEE 754 with the default rounding; violated for signalling NaNs, integers above 2^53 in 4 bytes, and endian='unspecified' in Buffers"
 },
 "C96": {
  "note": "Refuted in full by `C96_refuted`: what comes back is the text or the list. The texts of floats, bytes, lists and Buffers are not modelled."
 },
 "C97": {
  "note": "refuted: of two ranges of which one lies inside the other each is greater than the other; sorting overlapping ranges may leave inversions; a list + a range list raises AttributeError. Proved for disjoint ranges, with the exact condition for > and <."
 },
 "C98": {
  "note": "refuted: the element after the last is 0 where that of the view of the bytes raises IndexError (it reads what lies behind the inner view), and to_bytearray of a view that starts at a whole byte gives a view instead of a bytearray. Proved for everything else: bytes, bit string, elements within the length, slices, and OutputBuffer.set at all positions."
 },
 "C99": {
  "note": "objects are values in this model: an object that occurs in two places of the tree is not covered. A field with a pack_if condition is either packed in place or left as it was; a field whose condition is constantly true is packed."
 },
 "C100": {
  "note": "refuted twice: fields with bits in common are overwritten by the one whose name is last, and a gap in the middle of bytes is filled with other bits in one order than in the other (C42). Proved if neither happens; whether pack() succeeds never depends on the names. Unpacking: per field, except byte arrays of a part of a byte."
 },
 "C101": {
  "note": "refuted if a struct nested in the shorter class has a ReadPointer to a name that only the longer class has: the pointer resolves in the outermost struct (C27). Proved if no pointer, function or predicate of the shorter class and the classes nested in it refers to the new names."
 },
 "C102": {
  "note": "refuted for schemas that drop something: byte padding, reserved bits, uncovered bits of positional containers, strings stripped on both sides, with several padding characters or with a counted length, defaults of absent optional fields, negative lengths, repeated names, the constant 0.0 (ten witnesses). Proved for all schemas without these."
 },
 "C103": {
  "note": "refuted for bytes that belong to no field (packed as zeros) and for strings that end with stripped bytes other than the padding (two witnesses). Proved for classes with static positions whose fields keep their bits (C103_field_partial holds for one field of any class, with positions that depend on other fields). Not proved: selectors that look at fields of the same object."
 },
 "C104": {
  "note": "refuted for bits that belong to no field (the filling of C42 depends on the order in which the buffer grows) and for fields whose condition is false (a new field that refers to one makes it appear; two witnesses). Proved for bits of fields of the original class, and for attributes of fields whose condition is true and that have no after-unpack function. The order of the original fields must be kept; the original class needs a declared size that is large enough (else see C57)."
 },
 "C105": {
  "note": "the same text means the same range, list, view or input buffer, in full. Refuted in the other direction: 1 and 1.0 are equal and print differently (C105_refuted); proved for ranges that have integers only, or floats only."
 },
 "C106": {
  "note": "reading, writing, sizes and bounds in full for classes read at top level whose nested structs do not point to renamed fields. Refuted without the latter (C27: pointers refer to the outermost struct; witness)."
 },
 "C107": {
  "note": "in full; the limit is counted in nested structs, not in frames of the interpreter. This also says that the depth counter of the model stands for nothing but the limit."
 },
 "C108": {
  "note": "in full under the stated conditions; refuted without the condition on pointers inside the group, and for min_max_sizeof beyond sys.maxsize (the maximum is clipped, the minimum is not, and adding more fails an assertion)."
 },
 "C109": {
  "status": "proved",
  "note": "in full, exceptions included; selector functions and marshals of the user are assumed not to look at the position (refuted otherwise, which is no fault of the library)."
 },
 "C110": {
  "note": "in full under the stated conditions; refuted for byte padding and for negative lengths."
 },
 "C111": {
  "status": "proved",
  "note": "truncation in full for all classes; C111_only, any stream with the taken bytes, for the classes of C110. Selector functions and marshals of the user are assumed to look only at what they take (refuted otherwise, which is no fault of the library)."
 },
 "C112": {
  "note": "in full under the conditions of C110; refuted for byte padding."
 }
}