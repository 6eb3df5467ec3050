{
 "claims": [
  {
   "property": "C01",
   "status": "proved",
   "theorems": [
    "Verif.Props.C01_int_roundtrip"
   ],
   "note": ""
  },
  {
   "property": "C02",
   "status": "proved",
   "theorems": [
    "Verif.Props.C02_byte_order",
    "Verif.Props.C02_decode_value"
   ],
   "note": ""
  },
  {
   "property": "C03",
   "status": "proved",
   "theorems": [
    "Verif.Props.C03_overflow",
    "Verif.Props.C03_write_rejects",
    "Verif.Props.C03_read_rejects",
    "Verif.Props.C03_bytes_roundtrip"
   ],
   "note": ""
  },
  {
   "property": "C04",
   "status": "proved",
   "theorems": [
    "Verif.Props.C04_float_roundtrip"
   ],
   "note": ""
  },
  {
   "property": "C05",
   "status": "proved",
   "theorems": [
    "Verif.Props.C05_bitstream_roundtrip"
   ],
   "note": ""
  },
  {
   "property": "C06",
   "status": "proved",
   "theorems": [
    "Verif.Props.C06_write_bounds",
    "Verif.Props.C06_read_bounds"
   ],
   "note": ""
  },
  {
   "property": "C07",
   "status": "proved",
   "theorems": [
    "Verif.Props.C07_bitfields",
    "Verif.Props.C07_definition"
   ],
   "note": ""
  },
  {
   "property": "C08",
   "status": "proved",
   "theorems": [
    "Verif.Props.C08_no_corruption"
   ],
   "note": ""
  },
  {
   "property": "C09",
   "status": "proved",
   "theorems": [
    "Verif.Props.C09_positional",
    "Verif.Props.C09_declared",
    "Verif.Props.C09_refused",
    "Verif.Props.C09_layout"
   ],
   "note": ""
  },
  {
   "property": "C10",
   "status": "proved",
   "theorems": [
    "Verif.Props.C10_read_ahead_transparent",
    "Verif.Props.C10_peek_then_read"
   ],
   "note": ""
  },
  {
   "property": "C11",
   "status": "partial",
   "theorems": [
    "Verif.Props.C11_object",
    "Verif.Props.C11_object_refuted",
    "Verif.Props.C11_selector_transparent_partial",
    "Verif.Props.C11_leftover_refuted",
    "Verif.Props.C11_sumArray_refuted"
   ],
   "note": "Transparent when every peeked byte is consumed by the selected struct; the code raises AttributeError on leftovers and SumSizeArray cannot be read inside a selector (refutations proved). C11_object: the object that SelectStructByFunc passes to the function; in a nested struct it is the outermost object, with a _context_ None (C11_object_refuted)."
  },
  {
   "property": "C12",
   "status": "partial",
   "theorems": [
    "Verif.Props.C12_default_partial",
    "Verif.Props.C12_mapped_refuted",
    "Verif.Props.C12_mapping_ignored"
   ],
   "note": "The mapping is never consulted by the code (selector.py:12-18), so only the default branch can be proved; the mapped branch is refuted."
  },
  {
   "property": "C13",
   "status": "partial",
   "theorems": [
    "Verif.Props.C13_string_roundtrip",
    "Verif.Props.C13_buffer_roundtrip",
    "Verif.Props.C13_too_long",
    "Verif.Props.C13_short_data",
    "Verif.Props.C13_default_padding_refuted",
    "Verif.Props.C13_default_all_refuted",
    "Verif.Props.C13_other_values"
   ],
   "note": "All directions and padding bytes; with the default text padding of the macro nothing at all can be written or read (C13_default_all_refuted). Exact exceptions for text, lists and other values (C13_other_values)."
  },
  {
   "property": "C14",
   "status": "partial",
   "theorems": [
    "Verif.Props.C14_padded_partial",
    "Verif.Props.C14_buffer_partial",
    "Verif.Props.C14_written_length",
    "Verif.Props.C14_read_exact",
    "Verif.Props.C14_overlong_refuted",
    "Verif.Props.C14_left_refuted",
    "Verif.Props.C14_exact"
   ],
   "note": "Proved for right/both padding of strings that fit; over-long strings and left padding are refuted. C14_exact says exactly which strings and paddings round-trip."
  },
  {
   "property": "C15",
   "status": "proved",
   "theorems": [
    "Verif.Props.C15_varArray_roundtrip",
    "Verif.Props.C15_varArray_too_long",
    "Verif.Props.C15_fixedArray_roundtrip",
    "Verif.Props.C15_read_count"
   ],
   "note": ""
  },
  {
   "property": "C16",
   "status": "partial",
   "theorems": [
    "Verif.Props.C16_length_refuted",
    "Verif.Props.C16_length_ignored",
    "Verif.Props.C16_read_and_default_partial"
   ],
   "note": "The code does not check the length when writing (refuted); reading and the default are proved."
  },
  {
   "property": "C17",
   "status": "partial",
   "theorems": [
    "Verif.Props.C17_exact_consumption",
    "Verif.Props.C17_roundtrip_partial",
    "Verif.Props.C17_overshoot",
    "Verif.Props.C17_empty_elements_refuted"
   ],
   "note": "Exact consumption and overshoot proved in full; the round trip needs non-empty elements, refuted otherwise."
  },
  {
   "property": "C18",
   "status": "partial",
   "theorems": [
    "Verif.Props.C18_terminates_partial",
    "Verif.Props.C18_marshal_terminates_partial",
    "Verif.Props.C18_hang_refuted"
   ],
   "note": "Termination proved for all inputs when elements of SumSizeArrays cannot be read from nothing; refuted otherwise."
  },
  {
   "property": "C19",
   "status": "proved",
   "theorems": [
    "Verif.Props.C19_duplicate_codes_rejected",
    "Verif.Props.C19_mapping_roundtrip",
    "Verif.Props.C19_unknown_key",
    "Verif.Props.C19_unknown_code"
   ],
   "note": ""
  },
  {
   "property": "C20",
   "status": "partial",
   "theorems": [
    "Verif.Props.C20_schema_roundtrip_partial",
    "Verif.Props.C20_optional_default_refuted"
   ],
   "note": "Round trip proved for schemas and instances with a wire form (every marshal, nesting, optionals, bit fields); an optional field with a non-None default is refuted."
  },
  {
   "property": "C21",
   "status": "proved",
   "theorems": [
    "Verif.Props.C21_messages",
    "Verif.Props.C21_written"
   ],
   "note": ""
  },
  {
   "property": "C22",
   "status": "partial",
   "theorems": [
    "Verif.Props.C22_sizeof_partial",
    "Verif.Props.C22_marshal_sizeof_partial",
    "Verif.Props.C22_overlong_refuted",
    "Verif.Props.C22_subclass_refuted"
   ],
   "note": "Proved unless a fixed-size string is over-long or a subclass instance sits in a struct field; both are refuted."
  },
  {
   "property": "C23",
   "status": "partial",
   "theorems": [
    "Verif.Props.C23_min_max_partial",
    "Verif.Props.C23_pointer_refuted",
    "Verif.Props.C23_selector_refuted"
   ],
   "note": "Proved when variable sizes are stored as integers and no StructSelector occurs; pointer-sized strings and StructSelector sums are refuted."
  },
  {
   "property": "C24",
   "status": "partial",
   "theorems": [
    "Verif.Props.C24_text",
    "Verif.Props.C24_clip_refuted",
    "Verif.Props.C24_clip_partial",
    "Verif.Props.C24_add",
    "Verif.Props.C24_sum_partial",
    "Verif.Props.C24_order_partial",
    "Verif.Props.C24_overflow_refuted",
    "Verif.Props.C24_unbounded"
   ],
   "note": "Clipping, commutativity, unit and sums proved while the minima add up to at most sys.maxsize; negative maxima and overflow are refuted."
  },
  {
   "property": "C25",
   "status": "partial",
   "theorems": [
    "Verif.Props.C25_float_equality",
    "Verif.Props.C25_int_equality",
    "Verif.Props.C25_equality",
    "Verif.Props.C25_float_constant_refuted",
    "Verif.Props.C25_bits",
    "Verif.Props.C25_read_checks",
    "Verif.Props.C25_write_constant",
    "Verif.Props.C25_assignment",
    "Verif.Props.C25_exception_refuted",
    "Verif.Props.C25_struct_constant_refuted"
   ],
   "note": "Read checks, writes and assignment proved; refuted: a constant that is a Struct instance never equals what is read, and building the message of the InstructError can itself fail (constant that cannot be printed: TypeError; assigning a Struct instance: NotImplementedError); a constant NaN is written but rejected when read back, and the constant 0.0 accepts -0.0. What \"decodes to the constant\" means is tied to IEEE 754 values and to Python equality of ints, floats, strings and lists."
  },
  {
   "property": "C26",
   "status": "proved",
   "theorems": [
    "Verif.Props.C26_write",
    "Verif.Props.C26_size",
    "Verif.Props.C26_read",
    "Verif.Props.C26_read_default"
   ],
   "note": ""
  },
  {
   "property": "C27",
   "status": "partial",
   "theorems": [
    "Verif.Props.C27_pointer_string_partial",
    "Verif.Props.C27_nested_refuted"
   ],
   "note": "Pointer to a field of the same outermost struct proved; inside a nested struct the pointer resolves in the outermost struct (refuted)."
  },
  {
   "property": "C28",
   "status": "partial",
   "theorems": [
    "Verif.Props.C28_unset",
    "Verif.Props.C28_partial",
    "Verif.Props.C28_refuted",
    "Verif.Props.C28_lost_write_refuted",
    "Verif.Props.C28_array_refuted",
    "Verif.Props.C28_const_refuted",
    "Verif.Props.C28_nested_partial",
    "Verif.Props.C28_optional"
   ],
   "note": "Proved for every class whose lazy containers hold ordinary fields and padding of fixed size (numbers, strings with padding, mappings, arrays, structs of these), every input that the eager class accepts, and every sequence of operations, except size queries when an array is inside. C28_nested_partial: the same for objects of such classes inside other objects and arrays, to any depth, with programs that reach the objects inside through attributes and indices. Refuted in full: bit fields inside Lazy have their default until the container is instantiated and assignments before that are lost, constants inside Lazy raise KeyError, the size of an array inside Lazy never changes."
  },
  {
   "property": "C29",
   "status": "partial",
   "theorems": [
    "Verif.Props.C29_truncation_partial",
    "Verif.Props.C29_padding_refuted",
    "Verif.Props.C29_positional_refuted"
   ],
   "note": "Proved for regular schemas; BytePadding and positional bit containers accept truncated input (refuted)."
  },
  {
   "property": "C30",
   "status": "partial",
   "theorems": [
    "Verif.Props.C30_assigned",
    "Verif.Props.C30_base_lazy",
    "Verif.Props.C30_partial",
    "Verif.Props.C30_separate",
    "Verif.Props.C30_user",
    "Verif.Props.C30_inherited",
    "Verif.Props.C30_lazy",
    "Verif.Props.C30_refuted",
    "Verif.Props.C30_user_refuted",
    "Verif.Props.C30_replaces",
    "Verif.Props.C30_inherits",
    "Verif.Props.C30_base_constant"
   ],
   "note": "Proved for every class, every keyword and every default, with the copy made for each instance. Refuted in full: a field whose name is already an attribute of the class (a method of Struct such as sizeof) does not get its default, and a keyword-only parameter of a user-written __init__ is not passed although it names a field. Fields inside Lazy get no value at all (C30_lazy)."
  },
  {
   "property": "C31",
   "status": "proved",
   "theorems": [
    "Verif.Props.C31_slice",
    "Verif.Props.C31_compose"
   ],
   "note": ""
  },
  {
   "property": "C32",
   "status": "proved",
   "theorems": [
    "Verif.Props.C32_to_bytes",
    "Verif.Props.C32_index",
    "Verif.Props.C32_to_bitstr"
   ],
   "note": ""
  },
  {
   "property": "C33",
   "status": "proved",
   "theorems": [
    "Verif.Props.C33_overwrite",
    "Verif.Props.C33_overwrite_bytes"
   ],
   "note": ""
  },
  {
   "property": "C34",
   "status": "partial",
   "theorems": [
    "Verif.Props.C34_concat",
    "Verif.Props.C34_self_refuted",
    "Verif.Props.C34_self_partial",
    "Verif.Props.C34_self_bytes_refuted"
   ],
   "note": "Any two distinct arrays; a += a (the same object) raises IndexError (refuted)."
  },
  {
   "property": "C35",
   "status": "partial",
   "theorems": [
    "Verif.Props.C35_insert_partial",
    "Verif.Props.C35_splice_partial",
    "Verif.Props.C35_insert_refuted",
    "Verif.Props.C35_exact",
    "Verif.Props.C35_splice_exact"
   ],
   "note": "Characterised exactly: insertion is right for all arrays of a shape if and only if the shape satisfies a condition on the fractions (C35_exact, C35_splice_exact); it holds at the end and at byte boundaries of whole-byte arrays, and is refuted elsewhere."
  },
  {
   "property": "C36",
   "status": "partial",
   "theorems": [
    "Verif.Props.C36_delete_partial",
    "Verif.Props.C36_room",
    "Verif.Props.C36_shrink_partial",
    "Verif.Props.C36_delete_refuted"
   ],
   "note": "Exact: either the list semantics or IndexError, and which of the two is characterised; the IndexError case is the refutation."
  },
  {
   "property": "C37",
   "status": "partial",
   "theorems": [
    "Verif.Props.C37_zfill_partial",
    "Verif.Props.C37_zfill_refuted",
    "Verif.Props.C37_bits",
    "Verif.Props.C37_exact"
   ],
   "note": "Existing bits and length in all cases; the appended bits are computed exactly (C37_bits) and are all zero if and only if a condition on the fractions holds (C37_exact); refuted otherwise."
  },
  {
   "property": "C38",
   "status": "partial",
   "theorems": [
    "Verif.Props.C38_any_sort_partial",
    "Verif.Props.C38_has_overlaps_partial",
    "Verif.Props.C38_empty_refuted",
    "Verif.Props.C38_sound_any_sort",
    "Verif.Props.C38_sound",
    "Verif.Props.C38_empty_any_sort_partial",
    "Verif.Props.C38_empty_partial",
    "Verif.Props.C38_missed_refuted"
   ],
   "note": "Exact for lists without empty ranges, and (with 'starts inside' for 'shares a bit') unless an empty range lies at an end of a non-empty one; a true answer is always justified (C38_sound). Both directions of the full statement are refuted: an empty range inside another is reported, and an empty range at the end of another hides a real overlap."
  },
  {
   "property": "C39",
   "status": "proved",
   "theorems": [
    "Verif.Props.C39_byte_length",
    "Verif.Props.C39_max_stop",
    "Verif.Props.C39_contains",
    "Verif.Props.C39_overlaps",
    "Verif.Props.C39_byte_offset",
    "Verif.Props.C39_byte_offset_open",
    "Verif.Props.C39_make"
   ],
   "note": ""
  },
  {
   "property": "C40",
   "status": "partial",
   "theorems": [
    "Verif.Props.C40_numeric_partial",
    "Verif.Props.C40_slice_partial",
    "Verif.Props.C40_prefix_partial",
    "Verif.Props.C40_boundary_refuted",
    "Verif.Props.C40_outside_refuted",
    "Verif.Props.C40_numeric_exact",
    "Verif.Props.C40_slice_exact",
    "Verif.Props.C40_slice_outside"
   ],
   "note": "Exact for bits and prefix slices over any number of ranges: bits[i+1] is the position after bit i and later ranges lose as many bits as were skipped (C40_numeric_exact, C40_slice_exact, C40_slice_outside); the stated property is refuted for the first bit of a further range and for offsets past the end."
  },
  {
   "property": "C41",
   "status": "partial",
   "theorems": [
    "Verif.Props.C41_gather",
    "Verif.Props.C41_scatter_partial",
    "Verif.Props.C41_short",
    "Verif.Props.C41_gap_refuted",
    "Verif.Props.C41_bits",
    "Verif.Props.C41_exact",
    "Verif.Props.C41_gather_short"
   ],
   "note": "Gather, scatter-then-gather, untouched positions and the ValueError in full; zero gaps exactly under a condition on the alignment (C41_exact, an equivalence for ranges that follow each other); the contents of every bit, gaps included, for any closed ranges (C41_bits); the stated property is refuted."
  },
  {
   "property": "C42",
   "status": "partial",
   "theorems": [
    "Verif.Props.C42_layout_partial",
    "Verif.Props.C42_gap_refuted",
    "Verif.Props.C42_bits"
   ],
   "note": "Every bit of pack() is that of the last field covering it, zero elsewhere, for static positions whose written gaps are clean; refuted when a partly covered byte of a later field is grown over earlier ones (the gap keeps non-zero bits); every bit including those gaps is described by C42_bits."
  },
  {
   "property": "C43",
   "status": "partial",
   "theorems": [
    "Verif.Props.C43_choice_partial",
    "Verif.Props.C43_choice_nested_partial",
    "Verif.Props.C43_partial",
    "Verif.Props.C43_nested_partial",
    "Verif.Props.C43_refuted",
    "Verif.Props.C43_strings_refuted"
   ],
   "note": "Proved for classes whose positions are fixed and disjoint and whose fields are ints, bit ints, 4-byte floats, stripped strings, bytearrays, nested Buffers and lists of them, at any depth of nesting: unpacking any input that starts with the packed bytes gives the same attributes. C43_choice_partial adds fields and lists whose class is chosen by a function that reads other fields. Classes whose positions depend on other fields are the subject of C56 and of the general theorem round_trip. Refuted as stated: an 8-byte float packs but cannot be unpacked, and a list of strings is unpacked to its first item alone (C43_strings_refuted, C51_strings)."
  },
  {
   "property": "C44",
   "status": "partial",
   "theorems": [
    "Verif.Props.C44_static",
    "Verif.Props.C44_declared_partial",
    "Verif.Props.C44_zero_refuted"
   ],
   "note": "Length of pack() for static classes and padding/raising for declared sizes; refuted for a declared byte_size of 0, which is not checked."
  },
  {
   "property": "C45",
   "status": "partial",
   "theorems": [
    "Verif.Props.C45_pack_partial",
    "Verif.Props.C45_unpack_partial",
    "Verif.Props.C45_unspecified_refuted"
   ],
   "note": "Packing and unpacking of 1/2/4/8-byte integers for every value and byte order; the 4-byte case without an endian declaration depends on the platform's C long (refuted)."
  },
  {
   "property": "C46",
   "status": "partial",
   "theorems": [
    "Verif.Props.C46_exact",
    "Verif.Props.C46_unpack",
    "Verif.Props.C46_round_trip",
    "Verif.Props.C46_bool",
    "Verif.Props.C46_pack_partial",
    "Verif.Props.C46_unpack_partial",
    "Verif.Props.C46_negative_refuted",
    "Verif.Props.C46_short_refuted",
    "Verif.Props.C46_endian_refuted"
   ],
   "note": "Non-negative integers of other widths on a buffer with enough bits; negative numbers, short buffers and big-endian declarations are refuted. C46_exact gives the packed bits of every integer at every width, C46_unpack what any buffer unpacks to, and C46_round_trip that a round trip succeeds exactly for the non-negative integers that fit."
  },
  {
   "property": "C47",
   "status": "partial",
   "theorems": [
    "Verif.Props.C47_partial",
    "Verif.Props.C47_bytes_partial",
    "Verif.Props.C47_refuted"
   ],
   "note": "Proved for integers of struct widths, floats and fixed byte sizes of text when at least one whole byte of the place lies beyond the end (C47_bytes_partial: any byte-aligned place). Refuted: gathering silently leaves out what is missing, so bytearrays and integers of other widths are read short without an error."
  },
  {
   "property": "C48",
   "status": "partial",
   "theorems": [
    "Verif.Props.C48_float_partial",
    "Verif.Props.C48_double_refuted"
   ],
   "note": "4-byte floats in full; 8-byte floats never unpack (refuted)."
  },
  {
   "property": "C49",
   "status": "proved",
   "theorems": [
    "Verif.Props.C49_str",
    "Verif.Props.C49_ascii"
   ],
   "note": ""
  },
  {
   "property": "C50",
   "status": "partial",
   "theorems": [
    "Verif.Props.C50_exact",
    "Verif.Props.C50_pure",
    "Verif.Props.C50_bytes_partial",
    "Verif.Props.C50_fraction_refuted"
   ],
   "note": "Whole bytes at any bit alignment; positions that end inside a byte are refuted. C50_exact gives the bits of any byte array at any positions, C50_pure when they are the bytes given."
  },
  {
   "property": "C51",
   "status": "proved",
   "theorems": [
    "Verif.Props.C51_strings",
    "Verif.Props.C51_selector_none",
    "Verif.Props.C51_pack",
    "Verif.Props.C51_unpack",
    "Verif.Props.C51_ints",
    "Verif.Props.C51_limit",
    "Verif.Props.C51_terminates",
    "Verif.Props.C51_zero_diverges",
    "Verif.Props.C51_zero_then"
   ],
   "note": ""
  },
  {
   "property": "C52",
   "status": "partial",
   "theorems": [
    "Verif.Props.C52_depth",
    "Verif.Props.C52_unpack_partial",
    "Verif.Props.C52_nested_partial",
    "Verif.Props.C52_refuted"
   ],
   "note": "Every dereference ends within the depth of the class (C52_depth); unpack ends for classes whose lists are counted or have elements of non-zero size, also through nested buffers. Refuted for an uncounted list of elements that use no input: the loop never ends."
  },
  {
   "property": "C53",
   "status": "proved",
   "theorems": [
    "Verif.Props.C53_once",
    "Verif.Props.C53_cached",
    "Verif.Props.C53_calls"
   ],
   "note": ""
  },
  {
   "property": "C54",
   "status": "proved",
   "theorems": [
    "Verif.Props.C54_terminates",
    "Verif.Props.C54_acyclic",
    "Verif.Props.C54_exact",
    "Verif.Props.C54_cycle"
   ],
   "note": ""
  },
  {
   "property": "C55",
   "status": "proved",
   "theorems": [
    "Verif.Props.C55_context_restored",
    "Verif.Props.C55_history"
   ],
   "note": ""
  },
  {
   "property": "C56",
   "status": "partial",
   "theorems": [
    "Verif.Props.C56_general_partial",
    "Verif.Props.C56_len_partial",
    "Verif.Props.C56_total_partial",
    "Verif.Props.C56_bytes",
    "Verif.Props.C56_text_refuted"
   ],
   "note": "C56_general_partial covers any class whose packed fields fit computed places; C56_len_partial and C56_total_partial are the len_ref and total_size idioms with the exact wire format, C56_bytes the unconditional bytes payload. Refuted for text whose encoding is longer than its character count: len_ref counts characters and the excess bytes are dropped without an error."
  },
  {
   "property": "C57",
   "status": "partial",
   "theorems": [
    "Verif.Props.C57_own",
    "Verif.Props.C57_partial",
    "Verif.Props.C57_beyond",
    "Verif.Props.C57_refuted"
   ],
   "note": "byte_size of a subclass is the extent of the fields it declares itself (C57_own). Refuted as stated: inherited fields after them make pack fail and unpack report too little; a subclass without own fields gets byte_size 0. Proved whenever the inherited fields end within the own extent (C57_partial); otherwise pack raises AssertionError (C57_beyond)."
  },
  {
   "property": "C58",
   "status": "partial",
   "theorems": [
    "Verif.Props.C58_partial",
    "Verif.Props.C58_exact",
    "Verif.Props.C58_fixed_partial",
    "Verif.Props.C58_refuted"
   ],
   "note": "The returned size is the largest of the ends of the unpacked fields (C58_exact). It ends some unpacked field and bounds every field whose ranges ascend (C58_partial); a declared byte_size is returned as is (C58_fixed_partial). Refuted for a field whose ranges descend: the end of the last range is taken, so input further on is not counted."
  },
  {
   "property": "C59",
   "status": "partial",
   "theorems": [
    "Verif.Props.C59_read_partial",
    "Verif.Props.C59_string",
    "Verif.Props.C59_write",
    "Verif.Props.C59_round_partial",
    "Verif.Props.C59_refuted",
    "Verif.Props.C59_type"
   ],
   "note": "Reading, writing and sizeof proved for int byte_size. Refuted as stated: byte_size is a float when the last field ends with a bit range, and BytesIO.read raises TypeError then."
  },
  {
   "property": "C60",
   "status": "partial",
   "theorems": [
    "Verif.Props.C60_unpack_partial",
    "Verif.Props.C60_none_partial",
    "Verif.Props.C60_refuted",
    "Verif.Props.C60_pack"
   ],
   "note": "pack: nothing of a disabled field enters the output (C60_pack). unpack: the definition of a disabled field that nothing refers to has no influence on the outcome and its attribute becomes None. Refuted when another field refers to the disabled one: it is unpacked after all and its attribute set."
  },
  {
   "property": "C61",
   "status": "proved",
   "theorems": [
    "Verif.Props.C61_static",
    "Verif.Props.C61_class_size",
    "Verif.Props.C61_dynamic"
   ],
   "note": "Positions reported static are the same in every context of every object; class byte_size is computed from them; positions that need the object are never reported static."
  },
  {
   "property": "C62",
   "status": "partial",
   "theorems": [
    "Verif.Props.C62_identity",
    "Verif.Props.C62_arithmetic",
    "Verif.Props.C62_negation",
    "Verif.Props.C62_none",
    "Verif.Props.C62_value",
    "Verif.Props.C62_partial",
    "Verif.Props.C62_equality",
    "Verif.Props.C62_mixed",
    "Verif.Props.C62_ranges",
    "Verif.Props.C62_refuted"
   ],
   "note": "Values, equality, mixed operands and ranges are characterised for every pair of operands. Refuted as stated: the check `a and b or c` in the numeric guard lets a non-numeric reference combine with a numeric one, `==` on non-numeric references falls back to object identity, a numeric reference plus a position makes a position list, and unary minus of a non-numeric reference returns the NotImplemented object instead of raising."
  },
  {
   "property": "C63",
   "status": "proved",
   "theorems": [
    "Verif.Props.C63_keep",
    "Verif.Props.C63_keep_nested",
    "Verif.Props.C63_defaults",
    "Verif.Props.C63_remove",
    "Verif.Props.C63_fixed",
    "Verif.Props.C63_asserts"
   ],
   "note": ""
  },
  {
   "property": "C64",
   "status": "proved",
   "theorems": [
    "Verif.Props.C64_copy",
    "Verif.Props.C64_updated",
    "Verif.Props.C64_get",
    "Verif.Props.C64_write",
    "Verif.Props.C64_unchanged",
    "Verif.Props.C64_read_only"
   ],
   "note": ""
  },
  {
   "property": "C65",
   "status": "partial",
   "theorems": [
    "Verif.Props.C65_int_partial",
    "Verif.Props.C65_int_refuted",
    "Verif.Props.C65_negative_refuted",
    "Verif.Props.C65_exact",
    "Verif.Props.C65_index"
   ],
   "note": "Exact effect for all integers (C65_exact); it is the stated one when the digits of the number take as many bytes as the range; short and negative numbers are refuted."
  },
  {
   "property": "C66",
   "status": "partial",
   "theorems": [
    "Verif.Props.C66_to_bytearray_partial",
    "Verif.Props.C66_to_bytearray_refuted",
    "Verif.Props.C66_exact"
   ],
   "note": "Holds if and only if the view does not start on a byte boundary and end inside a byte (C66_exact); the rest is refuted."
  },
  {
   "property": "C67",
   "status": "partial",
   "theorems": [
    "Verif.Props.C67_nested_partial",
    "Verif.Props.C67_nested_bytes",
    "Verif.Props.C67_nested_first",
    "Verif.Props.C67_nested_second",
    "Verif.Props.C67_nested_refuted",
    "Verif.Props.C67_refuted",
    "Verif.Props.C67_repeat"
   ],
   "note": "refuted in full: a function that looks at a field which is set later in the same pack sees its old value the first time (C67_refuted), also when the field belongs to a nested object (C67_nested_refuted). Proved for functions that look at no attribute that pack() sets, with nested objects as values (C67_repeat) and with what pack() does to nested objects at any depth (C67_nested_partial); then the bytes are the same in both models (C67_nested_bytes)."
  },
  {
   "property": "C68",
   "status": "proved",
   "theorems": [
    "Verif.Props.C68_values"
   ],
   "note": ""
  },
  {
   "property": "C69",
   "status": "partial",
   "theorems": [
    "Verif.Props.C69_shared",
    "Verif.Props.C69_partial",
    "Verif.Props.C69_refuted"
   ],
   "note": "Refuted: every instance holds the object that was given as default (C69_shared); list_field(default=[]) is one list for all instances. Struct fields do copy their defaults (C30_separate). Proved for defaults that cannot be changed."
  },
  {
   "property": "C70",
   "status": "partial",
   "theorems": [
    "Verif.Props.C70_partial",
    "Verif.Props.C70_raises",
    "Verif.Props.C70_refuted"
   ],
   "note": "Refuted as stated: the function is called and its result is what other references see, but the attribute of the object is never assigned and keeps its old value (C70_partial says exactly that). A raising function makes unpack raise (C70_raises)."
  },
  {
   "property": "C71",
   "status": "partial",
   "theorems": [
    "Verif.Props.C71_partial",
    "Verif.Props.C71_static",
    "Verif.Props.C71_enough",
    "Verif.Props.C71_refuted"
   ],
   "note": "Proved for all classes with a size other than 0, and for classes without inherited fields if all fields are packed; in the latter without the condition the size is never too small (C71_enough). Refuted in full: for dynamic classes inherited fields are not counted, fields with a false pack_if are, and if such a field cannot be packed the call raises."
  },
  {
   "property": "C72",
   "status": "partial",
   "theorems": [
    "Verif.Props.C72_spaces",
    "Verif.Props.C72_refuted",
    "Verif.Props.C72_partial"
   ],
   "note": "Proved whenever the JSON text fits in the field (C72_partial; such fields also take part in the class round trips C43, C44, C54 and C56 through Fits.json and FitsOpen.json). Refuted in full: a longer text is cut off without an error, 12345 in three bytes comes back as 123."
  },
  {
   "property": "C73",
   "status": "proved",
   "theorems": [
    "Verif.Props.C73_stack",
    "Verif.Props.C73_path",
    "Verif.Props.C73_pack",
    "Verif.Props.C73_unpack"
   ],
   "note": "The text of the message (repr of the references) is not modelled. The full claim is proved for the recorded stack."
  },
  {
   "property": "C74",
   "status": "partial",
   "theorems": [
    "Verif.Props.C74_int_in_float",
    "Verif.Props.C74_written_partial",
    "Verif.Props.C74_read_partial",
    "Verif.Props.C74_absent_optional",
    "Verif.Props.C74_new_instance",
    "Verif.Props.C74_optional_refuted",
    "Verif.Props.C74_new_refuted"
   ],
   "note": "Proved for instances that can be written and for instances that were read, for classes whose optional fields can print None; refuted for absent optional numbers, floats and arrays (also right after reading) and for new instances without defaults."
  },
  {
   "property": "C75",
   "status": "proved",
   "theorems": [
    "Verif.Props.C75_complete",
    "Verif.Props.C75_open_last"
   ],
   "note": "Proved for position lists whose ranges are non-empty and below sys.maxsize."
  },
  {
   "property": "C76",
   "status": "partial",
   "theorems": [
    "Verif.Props.C76_pack_partial",
    "Verif.Props.C76_pack_plain",
    "Verif.Props.C76_unpack_partial",
    "Verif.Props.C76_unpack_sized",
    "Verif.Props.C76_pack_refuted",
    "Verif.Props.C76_unpack_refuted"
   ],
   "note": "Refuted as stated: an exception raised while pack_if is evaluated is not wrapped, a declared byte_size that is too small gives AssertionError, and what the calculation of the size raises after unpack is not wrapped. Proved: these are the only exceptions (C76_pack_partial, C76_unpack_partial), so the claim holds for pack of classes without conditions and declared size and for unpack of classes with a size."
  },
  {
   "property": "C77",
   "status": "partial",
   "theorems": [
    "Verif.Props.C77_fresh_partial",
    "Verif.Props.C77_equal",
    "Verif.Props.C77_again",
    "Verif.Props.C77_three_ways",
    "Verif.Props.C77_refuted",
    "Verif.Props.C77_kept_refuted"
   ],
   "note": "Refuted as stated: a selector that reads a field named in unpack_after sees the old value if another field whose name comes first is positioned behind the selected field, and fields with set_after_unpack keep their old value. Proved (C77_fresh_partial, C77_equal, C77_again) when selectors and member functions do not read fields."
  },
  {
   "property": "C78",
   "status": "partial",
   "theorems": [
    "Verif.Props.C78_bits_partial",
    "Verif.Props.C78_surround_partial",
    "Verif.Props.C78_window",
    "Verif.Props.C78_refuted"
   ],
   "note": "Proved for classes without bytearray fields for any two views with the same bits, and for all classes for views that begin at the same bit of a byte and agree up to the end of their last byte (so a window of whole bytes is unpacked like these bytes alone). Refuted for bytearray fields that end inside a byte. Missing: bytearray fields at whole bytes when the alignment differs."
  },
  {
   "property": "C79",
   "status": "partial",
   "theorems": [
    "Verif.Props.C79_value",
    "Verif.Props.C79_bit_int",
    "Verif.Props.C79_struct_int",
    "Verif.Props.C79_bytes",
    "Verif.Props.C79_nested",
    "Verif.Props.C79_selector",
    "Verif.Props.C79_local_partial",
    "Verif.Props.C79_explicit_refuted"
   ],
   "note": "C79_value holds for every codec and position; integers, byte arrays at whole bytes, nested buffers and selectors have corollaries in plain terms. C79_local_partial leaves out byte arrays of a part of a byte (they can show bits behind their end, C78_refuted). C79_explicit_refuted: a nested buffer with byte_size and no selector can be packed but never unpacked."
  },
  {
   "property": "C80",
   "status": "partial",
   "theorems": [
    "Verif.Props.C80_byte_at",
    "Verif.Props.C80_byte_slice",
    "Verif.Props.C80_bit_at",
    "Verif.Props.C80_bit_bool",
    "Verif.Props.C80_bit_slice",
    "Verif.Props.C80_ranges",
    "Verif.Props.C80_len",
    "Verif.Props.C80_extreme",
    "Verif.Props.C80_extreme_none",
    "Verif.Props.C80_extreme_one",
    "Verif.Props.C80_attr_pack",
    "Verif.Props.C80_attr_unpack",
    "Verif.Props.C80_truth",
    "Verif.Props.C80_total_pack",
    "Verif.Props.C80_total_refuted"
   ],
   "note": "C80_total_refuted: when packing, total_size also counts fields that are not packed, so it is not the number of bytes that pack returns. bits of positions of several ranges: see C40."
  },
  {
   "property": "C81",
   "status": "partial",
   "theorems": [
    "Verif.Props.C81_bit_int",
    "Verif.Props.C81_int_nosize",
    "Verif.Props.C81_int",
    "Verif.Props.C81_str",
    "Verif.Props.C81_float",
    "Verif.Props.C81_bytes",
    "Verif.Props.C81_codec",
    "Verif.Props.C81_pack",
    "Verif.Props.C81_static",
    "Verif.Props.C81_whole_partial",
    "Verif.Props.C81_truncated_refuted",
    "Verif.Props.C81_text",
    "Verif.Props.C81_raw",
    "Verif.Props.C81_list"
   ],
   "note": "C81_codec, C81_static, C81_bit_int, C81_int_nosize proved; C81_whole_partial covers integers and floats; C81_truncated_refuted: longer texts and byte strings are cut off silently, a number in a bytearray_field is taken for that many zero bytes. C81_text, C81_raw and C81_list say exactly which bytes strings, byte arrays and lists become, hence when something is cut off. str() of floats, bytes, lists and Buffers in string fields is not modelled."
  },
  {
   "property": "C82",
   "status": "partial",
   "theorems": [
    "Verif.Props.C82_byte_slice",
    "Verif.Props.C82_bit_slice",
    "Verif.Props.C82_bit_ref",
    "Verif.Props.C82_bit_ref_refuted",
    "Verif.Props.C82_index",
    "Verif.Props.C82_bytes",
    "Verif.Props.C82_bits",
    "Verif.Props.C82_single",
    "Verif.Props.C82_several",
    "Verif.Props.C82_bits_several",
    "Verif.Props.C82_bits_open_refuted",
    "Verif.Props.C82_field",
    "Verif.Props.C82_arguments",
    "Verif.Props.C82_position",
    "Verif.Props.C82_static",
    "Verif.Props.C82_wrong",
    "Verif.Props.C82_sizes_refuted",
    "Verif.Props.C82_after",
    "Verif.Props.C82_after_refuted",
    "Verif.Props.C82_condition",
    "Verif.Props.C82_size",
    "Verif.Props.C82_size_refuted",
    "Verif.Props.C82_macros",
    "Verif.Props.C82_macros_refuted"
   ],
   "note": "refuted: bit slices with reference bounds, open bit slices, different known sizes, set_after_unpack as a reference, byte_size as an expression, keyword endian of be_int_field"
  },
  {
   "property": "C83",
   "status": "partial",
   "theorems": [
    "Verif.Props.C83_get",
    "Verif.Props.C83_get_beyond",
    "Verif.Props.C83_get_before",
    "Verif.Props.C83_get_refuted",
    "Verif.Props.C83_set",
    "Verif.Props.C83_set_range",
    "Verif.Props.C83_set_refuted",
    "Verif.Props.C83_byte_refuted",
    "Verif.Props.C83_insert",
    "Verif.Props.C83_append",
    "Verif.Props.C83_extend",
    "Verif.Props.C83_delete",
    "Verif.Props.C83_pop",
    "Verif.Props.C83_delete_beyond",
    "Verif.Props.C83_delete_short",
    "Verif.Props.C83_delete_any",
    "Verif.Props.C83_delete_refuted",
    "Verif.Props.C83_index",
    "Verif.Props.C83_endless",
    "Verif.Props.C83_index_refuted",
    "Verif.Props.C83_remove",
    "Verif.Props.C83_count",
    "Verif.Props.C83_reverse",
    "Verif.Props.C83_clear"
   ],
   "note": "refuted: indices out of range for getting, setting and deleting (del never raises, C83_delete_any; of an array of less than a byte it leaves a negative length, and len() of an array that was empty raises ValueError from then on, C83_delete_short), negative items, index on views of a part of a buffer"
  },
  {
   "property": "C84",
   "status": "partial",
   "theorems": [
    "Verif.Props.C84_float_as_int",
    "Verif.Props.C84_int_as_float",
    "Verif.Props.C84_float_whole",
    "Verif.Props.C84_float_int",
    "Verif.Props.C84_int_float",
    "Verif.Props.C84_text_partial",
    "Verif.Props.C84_integers",
    "Verif.Props.C84_refuted",
    "Verif.Props.C84_float",
    "Verif.Props.C84_format",
    "Verif.Props.C84_own_partial",
    "Verif.Props.C84_own_refuted"
   ],
   "note": "Exact text for integer classes (C84_integers), floats within half a millionth (C84_float), floats in integer format and integers in float format (C84_float_as_int, C84_int_as_float), injective for everything but floats (C84_text_partial). Refuted: floats show six decimals only, so different instances print alike; the format of a nested class is not used when an outer class has one."
  },
  {
   "property": "C85",
   "status": "proved",
   "theorems": [
    "Verif.Props.C85_values",
    "Verif.Props.C85_deleted",
    "Verif.Props.C85_bare"
   ],
   "note": ""
  },
  {
   "property": "C86",
   "status": "proved",
   "theorems": [
    "Verif.Props.C86_pack",
    "Verif.Props.C86_unread",
    "Verif.Props.C86_pack_changes",
    "Verif.Props.C86_pack_pure",
    "Verif.Props.C86_unpack_changes"
   ],
   "note": ""
  },
  {
   "property": "C87",
   "status": "partial",
   "theorems": [
    "Verif.Props.C87_refuted",
    "Verif.Props.C87_partial",
    "Verif.Props.C87_struct"
   ],
   "note": "violated: there is no state in which a write succeeds (C87_refuted); no Struct with a non-empty representation can be written to such a stream (C87_struct)"
  },
  {
   "property": "C88",
   "status": "partial",
   "theorems": [
    "Verif.Props.C88_calls",
    "Verif.Props.C88_marshal",
    "Verif.Props.C88_append",
    "Verif.Props.C88_bytesIO",
    "Verif.Props.C88_reread",
    "Verif.Props.C88_failed",
    "Verif.Props.C88_one_call",
    "Verif.Props.C88_atomic_refuted",
    "Verif.Props.C88_field_refuted"
   ],
   "note": "violated in one point: after an exception the fields before the one that failed are in the stream (C88_atomic_refuted); C88_failed says exactly what is there, C88_one_call which fields leave nothing of themselves"
  },
  {
   "property": "C89",
   "status": "partial",
   "theorems": [
    "Verif.Props.C89_sequential",
    "Verif.Props.C89_sequential_refused",
    "Verif.Props.C89_positional",
    "Verif.Props.C89_mixed",
    "Verif.Props.C89_bit_field",
    "Verif.Props.C89_sequential_layout",
    "Verif.Props.C89_positional_layout_partial",
    "Verif.Props.C89_bit_index_refuted",
    "Verif.Props.C89_overlap_refuted",
    "Verif.Props.C89_numbers_refuted",
    "Verif.Props.C89_default",
    "Verif.Props.C89_default_written",
    "Verif.Props.C89_default_refuted",
    "Verif.Props.C89_text_refuted",
    "Verif.Props.C89_same_name_refuted",
    "Verif.Props.C89_const",
    "Verif.Props.C89_const_class_refuted",
    "Verif.Props.C89_const_value_refuted",
    "Verif.Props.C89_flags"
   ],
   "note": "refuted: Bits[i], overlapping slices, numbers as bit fields, unchecked defaults and constants, equal names, ConstField with a Struct class as marshal, text as default of strings"
  },
  {
   "property": "C90",
   "status": "partial",
   "theorems": [
    "Verif.Props.C90_calls",
    "Verif.Props.C90_rest",
    "Verif.Props.C90_items",
    "Verif.Props.C90_selector",
    "Verif.Props.C90_count",
    "Verif.Props.C90_short_refuted",
    "Verif.Props.C90_within_refuted",
    "Verif.Props.C90_count_type"
   ],
   "note": "Proved for every element unpacker: which calls happen, with which arguments, and when the loop returns, raises or never ends. Refuted: n is only an upper bound (a short input gives a shorter list without complaint), and the size a selector gives is believed even if it exceeds the input."
  },
  {
   "property": "C91",
   "status": "partial",
   "theorems": [
    "Verif.Props.C91_total",
    "Verif.Props.C91_distinct_partial",
    "Verif.Props.C91_positions_refuted",
    "Verif.Props.C91_broken_refuted",
    "Verif.Props.C91_call_refuted",
    "Verif.Props.C91_operators",
    "Verif.Props.C91_buffer",
    "Verif.Props.C91_inherited_refuted",
    "Verif.Props.C91_lines",
    "Verif.Props.C91_report",
    "Verif.Props.C91_report_refuted",
    "Verif.Props.C91_cycle"
   ],
   "note": "Refuted: positions with several pieces print the characters of the repr of a generator, whatever the pieces; a single byte prints as its number; after() and calls of Python functions print as 'repr error' (Context is not imported, func_name does not exist in Python 3); calls of other functions print with unbalanced parentheses; Buffer.__repr__ leaves out inherited fields; a resolved value whose repr raises replaces the InstructBufferError. The distinctness theorem covers the fragment stated first; attribute references (ctx.obj.x) and products and quotients are not in it."
  },
  {
   "property": "C92",
   "status": "partial",
   "theorems": [
    "Verif.Props.C92_foreseen",
    "Verif.Props.C92_final",
    "Verif.Props.C92_refuted"
   ],
   "note": "Refuted as stated: if another field whose name comes first is positioned behind the selected field, the selector is called before the fields named in unpack_after are unpacked (C92_refuted). Proved when nothing asks for the field before its turn, with no member functions that change the object, and for fields that are always unpacked (C92_foreseen, C92_final)."
  },
  {
   "property": "C93",
   "status": "partial",
   "theorems": [
    "Verif.Props.C93_text_partial",
    "Verif.Props.C93_decoded",
    "Verif.Props.C93_refuted",
    "Verif.Props.C93_fresh_refuted"
   ],
   "note": "Proved after any sequence of operations for classes whose lazy containers hold ordinary fields and padding. False for bit fields inside Lazy(...), which are printed with their defaults before decoding (C93_refuted). An object made by calling the class cannot be printed at all when a lazy field was not given: KeyError (C93_fresh_refuted)."
  },
  {
   "property": "C94",
   "status": "partial",
   "theorems": [
    "Verif.Props.C94_struct",
    "Verif.Props.C94_array",
    "Verif.Props.C94_length_refuted",
    "Verif.Props.C94_length_partial",
    "Verif.Props.C94_defaults",
    "Verif.Props.C94_min_max",
    "Verif.Props.C94_adapter"
   ],
   "note": "Proved for fields, arrays, the adapter, the inherited methods and the bounds. Refuted for lengths of strings: VarSizeString.sizeof passes the string, not its length, to the marshal of the length, so a length of variable size is written and read, but sizeof raises (C94_length_refuted; proved for lengths of constant size). min_max_sizeof of a Struct with a Buffer inside always raises (C94_adapter)."
  },
  {
   "property": "C95",
   "status": "partial",
   "theorems": [
    "Verif.Props.C95_single",
    "Verif.Props.C95_exact",
    "Verif.Props.C95_survives_partial",
    "Verif.Props.C95_nan_refuted",
    "Verif.Props.C95_reread_partial",
    "Verif.Props.C95_special",
    "Verif.Props.C95_convert",
    "Verif.Props.C95_write",
    "Verif.Props.C95_int_double",
    "Verif.Props.C95_convert_exact",
    "Verif.Props.C95_int_single_partial",
    "Verif.Props.C95_int_single_refuted",
    "Verif.Props.C95_buffer",
    "Verif.Props.C95_unspecified_refuted"
   ],
   "note": "the conversions are those of IEEE 754 with the default rounding; violated for signalling NaNs, integers above 2^53 in 4 bytes, and endian='unspecified' in Buffers"
  },
  {
   "property": "C96",
   "status": "partial",
   "theorems": [
    "Verif.Props.C96_text",
    "Verif.Props.C96_items",
    "Verif.Props.C96_reread",
    "Verif.Props.C96_distinct",
    "Verif.Props.C96_bytes",
    "Verif.Props.C96_refuted"
   ],
   "note": "Refuted in full by `C96_refuted`: what comes back is the text or the list. The texts of floats, bytes, lists and Buffers are not modelled."
  },
  {
   "property": "C97",
   "status": "partial",
   "theorems": [
    "Verif.Props.C97_compare",
    "Verif.Props.C97_equal",
    "Verif.Props.C97_strict",
    "Verif.Props.C97_converse_partial",
    "Verif.Props.C97_disjoint_partial",
    "Verif.Props.C97_sorted_partial",
    "Verif.Props.C97_concat",
    "Verif.Props.C97_refuted"
   ],
   "note": "refuted: of two ranges of which one lies inside the other each is greater than the other; sorting overlapping ranges may leave inversions; a list + a range list raises AttributeError. Proved for disjoint ranges, with the exact condition for > and <."
  },
  {
   "property": "C98",
   "status": "partial",
   "theorems": [
    "Verif.Props.C98_bytes",
    "Verif.Props.C98_index_partial",
    "Verif.Props.C98_slice",
    "Verif.Props.C98_same_partial",
    "Verif.Props.C98_to_bytearray_partial",
    "Verif.Props.C98_output",
    "Verif.Props.C98_refuted"
   ],
   "note": "refuted: the element after the last is 0 where that of the view of the bytes raises IndexError (it reads what lies behind the inner view), and to_bytearray of a view that starts at a whole byte gives a view instead of a bytearray. Proved for everything else: bytes, bit string, elements within the length, slices, and OutputBuffer.set at all positions."
  },
  {
   "property": "C99",
   "status": "proved",
   "theorems": [
    "Verif.Props.C99_object",
    "Verif.Props.C99_list",
    "Verif.Props.C99_others"
   ],
   "note": "objects are values in this model: an object that occurs in two places of the tree is not covered. A field with a pack_if condition is either packed in place or left as it was; a field whose condition is constantly true is packed."
  },
  {
   "property": "C100",
   "status": "partial",
   "theorems": [
    "Verif.Props.C100_succeeds",
    "Verif.Props.C100_pack_partial",
    "Verif.Props.C100_unpack_partial",
    "Verif.Props.C100_gap_refuted",
    "Verif.Props.C100_overlap_refuted"
   ],
   "note": "refuted twice: fields with bits in common are overwritten by the one whose name is last, and a gap in the middle of bytes is filled with other bits in one order than in the other (C42). Proved if neither happens; whether pack() succeeds never depends on the names. Unpacking: per field, except byte arrays of a part of a byte."
  },
  {
   "property": "C101",
   "status": "partial",
   "theorems": [
    "Verif.Props.C101_old_reader",
    "Verif.Props.C101_new_reader",
    "Verif.Props.C101_write",
    "Verif.Props.C101_sizeof",
    "Verif.Props.C101_pointer_refuted"
   ],
   "note": "refuted if a struct nested in the shorter class has a ReadPointer to a name that only the longer class has: the pointer resolves in the outermost struct (C27). Proved if no pointer, function or predicate of the shorter class and the classes nested in it refers to the new names."
  },
  {
   "property": "C102",
   "status": "partial",
   "theorems": [
    "Verif.Props.C102_struct_partial",
    "Verif.Props.C102_string_partial",
    "Verif.Props.C102_value_partial",
    "Verif.Props.C102_injective_partial",
    "Verif.Props.C102_padding_refuted",
    "Verif.Props.C102_reserved_refuted",
    "Verif.Props.C102_uncovered_refuted",
    "Verif.Props.C102_strip_refuted",
    "Verif.Props.C102_characters_refuted",
    "Verif.Props.C102_counted_refuted",
    "Verif.Props.C102_default_refuted",
    "Verif.Props.C102_negative_refuted",
    "Verif.Props.C102_names_refuted",
    "Verif.Props.C102_zero_refuted"
   ],
   "note": "refuted for schemas that drop something: byte padding, reserved bits, uncovered bits of positional containers, strings stripped on both sides, with several padding characters or with a counted length, defaults of absent optional fields, negative lengths, repeated names, the constant 0.0 (ten witnesses). Proved for all schemas without these."
  },
  {
   "property": "C103",
   "status": "partial",
   "theorems": [
    "Verif.Props.C103_field_partial",
    "Verif.Props.C103_static_partial",
    "Verif.Props.C103_whole_partial",
    "Verif.Props.C103_injective_partial",
    "Verif.Props.C103_nested_partial",
    "Verif.Props.C103_gap_refuted",
    "Verif.Props.C103_strip_refuted"
   ],
   "note": "refuted for bytes that belong to no field (packed as zeros) and for strings that end with stripped bytes other than the padding (two witnesses). Proved for classes with static positions whose fields keep their bits (C103_field_partial holds for one field of any class, with positions that depend on other fields). Not proved: selectors that look at fields of the same object."
  },
  {
   "property": "C104",
   "status": "partial",
   "theorems": [
    "Verif.Props.C104_pack_partial",
    "Verif.Props.C104_unpack_partial",
    "Verif.Props.C104_gap_refuted",
    "Verif.Props.C104_absent_refuted"
   ],
   "note": "refuted for bits that belong to no field (the filling of C42 depends on the order in which the buffer grows) and for fields whose condition is false (a new field that refers to one makes it appear; two witnesses). Proved for bits of fields of the original class, and for attributes of fields whose condition is true and that have no after-unpack function. The order of the original fields must be kept; the original class needs a declared size that is large enough (else see C57)."
  },
  {
   "property": "C105",
   "status": "partial",
   "theorems": [
    "Verif.Props.C105_range",
    "Verif.Props.C105_range_equal",
    "Verif.Props.C105_ranges",
    "Verif.Props.C105_view",
    "Verif.Props.C105_input",
    "Verif.Props.C105_view_bits",
    "Verif.Props.C105_refuted",
    "Verif.Props.C105_equal_partial"
   ],
   "note": "the same text means the same range, list, view or input buffer, in full. Refuted in the other direction: 1 and 1.0 are equal and print differently (C105_refuted); proved for ranges that have integers only, or floats only."
  },
  {
   "property": "C106",
   "status": "partial",
   "theorems": [
    "Verif.Props.C106_read",
    "Verif.Props.C106_write",
    "Verif.Props.C106_sizeof",
    "Verif.Props.C106_minMax",
    "Verif.Props.C106_across",
    "Verif.Props.C106_pointer_refuted"
   ],
   "note": "reading, writing, sizes and bounds in full for classes read at top level whose nested structs do not point to renamed fields. Refuted without the latter (C27: pointers refer to the outermost struct; witness)."
  },
  {
   "property": "C107",
   "status": "proved",
   "theorems": [
    "Verif.Props.C107_read",
    "Verif.Props.C107_write",
    "Verif.Props.C107_sizeof",
    "Verif.Props.C107_minMax",
    "Verif.Props.C107_marshal",
    "Verif.Props.C107_any",
    "Verif.Props.C107_enough"
   ],
   "note": "in full; the limit is counted in nested structs, not in frames of the interpreter. This also says that the depth counter of the model stands for nothing but the limit."
  },
  {
   "property": "C108",
   "status": "partial",
   "theorems": [
    "Verif.Props.C108_read",
    "Verif.Props.C108_write",
    "Verif.Props.C108_sizeof",
    "Verif.Props.C108_minMax",
    "Verif.Props.C108_pointer_refuted",
    "Verif.Props.C108_minMax_refuted"
   ],
   "note": "in full under the stated conditions; refuted without the condition on pointers inside the group, and for min_max_sizeof beyond sys.maxsize (the maximum is clipped, the minimum is not, and adding more fails an assertion)."
  },
  {
   "property": "C109",
   "status": "proved",
   "theorems": [
    "Verif.Props.C109_offset",
    "Verif.Props.C109_same",
    "Verif.Props.C109_user_refuted"
   ],
   "note": "in full, exceptions included; selector functions and marshals of the user are assumed not to look at the position (refuted otherwise, which is no fault of the library)."
  },
  {
   "property": "C110",
   "status": "partial",
   "theorems": [
    "Verif.Props.C110_after",
    "Verif.Props.C110_error",
    "Verif.Props.C110_middle",
    "Verif.Props.C110_padding_refuted",
    "Verif.Props.C110_negative_refuted"
   ],
   "note": "in full under the stated conditions; refuted for byte padding and for negative lengths."
  },
  {
   "property": "C111",
   "status": "proved",
   "theorems": [
    "Verif.Props.C111_cut",
    "Verif.Props.C111_only",
    "Verif.Props.C111_user_refuted"
   ],
   "note": "truncation in full for all classes; C111_only, any stream with the taken bytes, for the classes of C110. Selector functions and marshals of the user are assumed to look only at what they take (refuted otherwise, which is no fault of the library)."
  },
  {
   "property": "C112",
   "status": "partial",
   "theorems": [
    "Verif.Props.C112_prefix",
    "Verif.Props.C112_split",
    "Verif.Props.C112_stream",
    "Verif.Props.C112_padding_refuted"
   ],
   "note": "in full under the conditions of C110; refuted for byte padding."
  }
 ]
}
