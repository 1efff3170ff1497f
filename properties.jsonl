{"id": "C01", "title": "align_up_to rounds up exactly", "statement": "For a power-of-two alignment and a position with pos + alignment representable in usize, align_up_to(pos, alignment) is the least multiple of alignment that is >= pos, and neither overflow check nor debug assertion fires.", "quantifier": "every pointer width (32/64 bit), every power-of-two alignment, every pos with pos + alignment <= usize::MAX", "why_tests_cant": "The bit trick must agree with division for ~2^64 positions times 63 alignments; a test only samples.", "anchors": ["ser_raw/src/util.rs::align_up_to"]}
{"id": "C02", "title": "is_aligned_to decides divisibility", "statement": "For a power-of-two alignment, is_aligned_to(pos, alignment) is true exactly when alignment divides pos.", "quantifier": "every pointer width, every power-of-two alignment, every pos", "why_tests_cant": "Infinite/2^64 domain of a bit trick.", "anchors": ["ser_raw/src/util.rs::is_aligned_to"]}
{"id": "C03", "title": "aligned_max_capacity is the exact allocation limit", "statement": "For a legal alignment, a byte size satisfies Rust's Layout rule (size rounded up to alignment is <= isize::MAX) exactly when it is <= aligned_max_capacity(alignment); the value itself is a multiple of the alignment, and illegal alignments (0, not a power of two, >= isize::MAX) are rejected by a panic.", "quantifier": "every alignment and every size, both pointer widths", "why_tests_cant": "The boundary has to be exact for all alignments; tests use alignment 16.", "anchors": ["ser_raw/src/util.rs::aligned_max_capacity"]}
{"id": "C04", "title": "aligned_max_u32_capacity gives a legal MAX_CAPACITY with u32 positions", "statement": "The value returned for a legal alignment is a legal MAX_CAPACITY for a storage whose STORAGE_ALIGNMENT is the argument, and the position of every non-empty value in such a storage fits in a u32. Every other alignment panics, in every build.", "quantifier": "every legal alignment, both pointer widths, every history of the storage", "why_tests_cant": "Needs a 4 GiB buffer to exercise the boundary.", "anchors": ["ser_raw/src/util.rs::aligned_max_u32_capacity", "ser_raw/src/storage/mod.rs::ASSERT_ALIGNMENTS_VALID"]}
{"id": "C05", "title": "Storage never becomes inconsistent", "statement": "After any sequence of AlignedVec operations called within their safety contracts (new, with_capacity, push*, push_empty*, reserve, clear, shrink_to_fit, write, ...) - including operations that panic and are caught - pos() <= capacity() <= MAX_CAPACITY, capacity() is a multiple of MAX_VALUE_ALIGNMENT, pos() is a multiple of VALUE_ALIGNMENT and no operation has undefined behaviour. One safe call is excluded and proved to break the rule: push_slice::<T>(&[]) with align_of::<T>() > 1 on a storage that has never allocated passes a misaligned pointer to ptr::copy_nonoverlapping.", "quantifier": "every legal choice of const parameters, every operation sequence of any length, every allocator behaviour, debug and release builds", "why_tests_cant": "Quantifies over all histories and all allocator answers.", "anchors": ["ser_raw/src/storage/mod.rs::Storage", "ser_raw/src/storage/aligned_vec.rs::AlignedVec"]}
{"id": "C06", "title": "Buffer address is storage-aligned", "statement": "Whenever the storage owns memory, as_ptr() is a non-null multiple of STORAGE_ALIGNMENT, so a position aligned for T is an address aligned for T.", "quantifier": "every history and allocator behaviour", "why_tests_cant": "Allocators in tests over-align; misalignment shows up rarely.", "anchors": ["ser_raw/src/storage/aligned_vec.rs::alloc", "ser_raw/src/storage/aligned_vec.rs::realloc", "ser_raw/src/storage/aligned_vec.rs::as_ptr"]}
{"id": "C07", "title": "Every pushed value is aligned", "statement": "The position returned by push/push_slice of a non-zero-sized T is a multiple of align_of::<T>() and of VALUE_ALIGNMENT, and it is the smallest such position at or after the previous pos().", "quantifier": "every const parameter choice, every history, every T the storage accepts", "why_tests_cant": "All combinations of alignments, sizes and prior positions.", "anchors": ["ser_raw/src/storage/mod.rs::push_slice", "ser_raw/src/storage/mod.rs::align_for", "ser_raw/src/storage/mod.rs::align_after"]}
{"id": "C08", "title": "Pushed data is never disturbed", "statement": "The bytes of every pushed slice can be read back at the position push returned, after any number of further pushes, reserves, growth reallocations and shrink_to_fit, until clear() (or an explicit random-access write to them).", "quantifier": "every history, every allocator behaviour (each growth may move the buffer anywhere)", "why_tests_cant": "All interleavings of growth and pushes.", "anchors": ["ser_raw/src/storage/mod.rs::push_slice", "ser_raw/src/storage/aligned_vec.rs::push_slice_unchecked", "ser_raw/src/storage/aligned_vec.rs::write_slice", "ser_raw/src/storage/aligned_vec.rs::realloc"]}
{"id": "C09", "title": "reserve guarantees room and changes nothing else", "statement": "reserve(n) either returns with capacity() - pos() >= n, capacity() not smaller than before, same pos() and same contents, or panics; it panics exactly when pos() + n > MAX_CAPACITY (including usize overflow), and then the storage is unchanged.", "quantifier": "every reachable storage, every n: usize", "why_tests_cant": "The overflow and MAX_CAPACITY boundaries need enormous buffers.", "anchors": ["ser_raw/src/storage/aligned_vec.rs::reserve", "ser_raw/src/storage/aligned_vec.rs::grow_for_reserve"]}
{"id": "C10", "title": "push fails cleanly and only when it must", "statement": "push_slice panics exactly when the aligned position plus the slice's size exceeds MAX_CAPACITY; after a panic the storage is still consistent, its capacity and contents are unchanged and pos() has advanced by at most alignment padding.", "quantifier": "every reachable storage, every slice", "why_tests_cant": "Needs panics at exact boundaries of all parameter choices.", "anchors": ["ser_raw/src/storage/mod.rs::push_slice", "ser_raw/src/storage/aligned_vec.rs::grow_for_reserve"]}
{"id": "C11", "title": "with_capacity pre-allocates the rounded-up amount", "statement": "with_capacity(0) allocates nothing; with_capacity(c) panics exactly when c > MAX_CAPACITY and otherwise yields an empty storage whose capacity is the least multiple of MAX_VALUE_ALIGNMENT >= c, which is never above MAX_CAPACITY; pushes that fit in c bytes then never reallocate.", "quantifier": "every const parameter choice and every c: usize", "why_tests_cant": "Boundary arithmetic over all parameters.", "anchors": ["ser_raw/src/storage/mod.rs::with_capacity", "ser_raw/src/storage/aligned_vec.rs::with_capacity_unchecked"]}
{"id": "C12", "title": "Growth is by powers of two and reallocations are logarithmic", "statement": "Whenever reserve grows the storage the new capacity is a power of two or MAX_CAPACITY, and at least MAX_VALUE_ALIGNMENT; in any history without shrink_to_fit the number of growths is at most log2(MAX_CAPACITY) + 2. Precisely, when reserve or push has to grow, the new capacity is the least power of two with room (and at least MAX_VALUE_ALIGNMENT), or MAX_CAPACITY if that is less.", "quantifier": "every history of pushes/reserves/clears of any length", "why_tests_cant": "Amortised cost claim over unbounded histories.", "anchors": ["ser_raw/src/storage/aligned_vec.rs::grow_for_reserve"]}
{"id": "C13", "title": "shrink_to_fit is minimal and lossless", "statement": "shrink_to_fit leaves pos() and the contents below pos() unchanged and makes capacity() the least multiple of MAX_VALUE_ALIGNMENT >= pos() (releasing the allocation entirely when pos() = 0); it never grows the storage.", "quantifier": "every reachable storage and allocator behaviour", "why_tests_cant": "All states, including the 0-capacity corner.", "anchors": ["ser_raw/src/storage/aligned_vec.rs::shrink_to_fit"]}
{"id": "C14", "title": "clear resets position only", "statement": "clear() sets pos() to 0 and keeps capacity() and the allocation.", "quantifier": "every reachable storage", "why_tests_cant": "All states.", "anchors": ["ser_raw/src/storage/mod.rs::clear"]}
{"id": "C15", "title": "Allocator discipline: no leak, no double free, matching layouts", "statement": "Across any history ending in drop - including histories with caught panics - each alloc/realloc/dealloc call the storage makes satisfies the global allocator's contract (non-zero valid layout; realloc/dealloc only of a live block with the exact layout it was allocated with), and after drop the storage owns no memory.", "quantifier": "every history and allocator behaviour", "why_tests_cant": "Leaks/double frees depend on rare histories (shrink to zero, regrow, panic).", "anchors": ["ser_raw/src/storage/aligned_vec.rs::alloc", "ser_raw/src/storage/aligned_vec.rs::realloc", "ser_raw/src/storage/aligned_vec.rs::dealloc", "ser_raw/src/storage/aligned_vec.rs::layout", "ser_raw/src/storage/aligned_vec.rs::drop", "ser_raw/src/storage/aligned_vec.rs::shrink_to_fit"]}
{"id": "C16", "title": "Zero-sized types cost nothing", "statement": "push/push_slice of a zero-sized T returns 0 and leaves the storage completely unchanged, whatever the slice length.", "quantifier": "every reachable storage, every ZST, every slice length", "why_tests_cant": "Quantifies over all states.", "anchors": ["ser_raw/src/storage/mod.rs::push_slice"]}
{"id": "C17", "title": "push_empty leaves room for the value", "statement": "push_empty/push_empty_slice::<T>(n) returns an aligned position from which n*size_of::<T>() bytes are inside pos(), without touching earlier contents, provided n*size_of::<T>() does not overflow usize and (debug builds) is a multiple of VALUE_ALIGNMENT. Both provisos are necessary: in debug builds it panics otherwise, and in release builds the size wraps and too little room is left.", "quantifier": "every reachable storage, every T and n", "why_tests_cant": "Wrap-around needs n near 2^61; debug/release difference.", "anchors": ["ser_raw/src/storage/mod.rs::push_empty_slice", "ser_raw/src/storage/aligned_vec.rs::set_pos"]}
{"id": "C18", "title": "Stored values never overlap", "statement": "The byte ranges [position, position + size) of values pushed since the last clear are pairwise disjoint, in push order, and end at or below pos().", "quantifier": "every history", "why_tests_cant": "All sequences of pushes.", "anchors": ["ser_raw/src/storage/mod.rs::push_slice"]}
{"id": "C19", "title": "Random-access write/read", "statement": "write(pos, v) inside the storage changes exactly the bytes of v's range; read::<T>(pos) then returns v; every other byte, pos() and capacity() are unchanged.", "quantifier": "every reachable storage and every in-bounds aligned position", "why_tests_cant": "All positions and states.", "anchors": ["ser_raw/src/storage/aligned_vec.rs::write_slice", "ser_raw/src/storage/mod.rs::write", "ser_raw/src/storage/aligned_vec.rs::read"]}
{"id": "C20", "title": "Address-to-position mapping is exact inside an allocation", "statement": "While the contents of an allocation are processed, the output position reported for any address inside the input allocation is the position of the same byte in the output copy, without overflow.", "quantifier": "every allocation, every address in it, debug and release", "why_tests_cant": "All address/position pairs incl. near address space ends.", "anchors": ["ser_raw/src/pos.rs::PosMapping::pos_for_addr", "ser_raw/src/pos.rs::TrackingAddr"]}
{"id": "C21", "title": "Nested processing restores the mapping", "statement": "After push_and_process(_slice) returns, the serializer's position mapping is what it was before the call, however deeply the processing nests and whatever calls it makes, other than serialize_value itself (which leaves the mapping of the value it serialized behind; proved by example).", "quantifier": "every nesting depth and every script of serializer calls made by Serialize impls", "why_tests_cant": "Unbounded nesting.", "anchors": ["ser_raw/src/serializer_traits/ptr_writing.rs::do_push_and_process_slice", "ser_raw/src/serializer_traits/pos_tracking.rs::do_push_and_process_slice"]}
{"id": "C22", "title": "finalize repairs every pointer for every movement history", "statement": "Whatever sequence of buffer moves happened (including moving away and back to the same address, and moves after the last pointer was written), after finalize() each pointer slot holds final_buffer_address + target_position, provided no slot is written twice. The proviso is necessary: a slot written twice is relocated twice (proved by example).", "quantifier": "every sequence of pointer writes interleaved with arbitrary buffer moves", "why_tests_cant": "All allocator histories; real allocators rarely move back and forth.", "anchors": ["ser_raw/src/serializer_traits/complete.rs::do_overwrite_ptr", "ser_raw/src/serializer_traits/complete.rs::do_finalize", "ser_raw/src/pos.rs::PtrGroup::correct_ptrs"]}
{"id": "C23", "title": "finalize touches nothing but recorded pointers", "statement": "Bytes outside recorded pointer slots, pos() and capacity() are unchanged by finalize().", "quantifier": "every serializer state", "why_tests_cant": "All states.", "anchors": ["ser_raw/src/serializer_traits/complete.rs::do_finalize"]}
{"id": "C24", "title": "CompleteSerializer output is the value", "statement": "For any valid input value of any supported type, if serialize returns (pos, storage), then reading the storage's buffer as a T at pos - following only pointers stored in the buffer - yields a valid value equal to the input. (For a zero-sized type of alignment > 1 this needs the buffer address to be aligned for it, as it is once the storage has allocated; in a storage that never allocated it fails: C36.)", "quantifier": "every type (structs, enums with tags or niches, Option, arrays, tuples, Box, Vec, String, BigUint/BigInt, recursive types), every value of any depth, every const parameters, every initial capacity, every allocator behaviour", "why_tests_cant": "Infinite family of types/values/growth schedules.", "anchors": ["ser_raw/src/serializers/complete.rs::CompleteSerializer", "ser_raw/src/serialize_impls/ptrs.rs", "ser_raw/src/serializer_traits/complete.rs"]}
{"id": "C25", "title": "CompleteSerializer output is self-contained", "statement": "Rehydration reads no byte outside [as_ptr(), as_ptr() + pos()): the input may be dropped; every non-dangling pointer in the rehydrated value points into the buffer and is aligned. (For a zero-sized type of alignment > 1 this needs the buffer address to be aligned for it, as it is once the storage has allocated; in a storage that never allocated it fails: C36.)", "quantifier": "as C24", "why_tests_cant": "A stale pointer to the still-alive input passes tests.", "anchors": ["ser_raw/src/serializers/complete.rs::CompleteSerializer", "ser_raw/src/serializer_traits/complete.rs", "ser_raw/src/serializer_traits/ptr_writing.rs"]}
{"id": "C26", "title": "CompleteSerializer shrinks vectors and strings", "statement": "In the rehydrated value every Vec/String has capacity == len, and empty ones have the canonical dangling pointer and capacity 0 (no pointer to the input survives). (For a zero-sized type of alignment > 1 this needs the buffer address to be aligned for it, as it is once the storage has allocated; in a storage that never allocated it fails: C36.)", "quantifier": "as C24, every capacity/len combination, every Vec field order the compiler may choose", "why_tests_cant": "Field order cannot be varied in a test.", "anchors": ["ser_raw/src/serialize_impls/ptrs.rs::Vec", "ser_raw/src/serialize_impls/ptrs.rs::overwrite_capacity_and_ptr_for_empty_vec", "ser_raw/src/serialize_impls/ptrs.rs::overwrite_capacity_and_ptr_for_empty_string"]}
{"id": "C27", "title": "PtrOffsetSerializer output is readable by offsets", "statement": "For any valid input, a reader that interprets each pointer as a position in the output recovers a value equal to the input.", "quantifier": "as C24", "why_tests_cant": "Repo has no deserializer: tests only check the output length.", "anchors": ["ser_raw/src/serializers/ptr_offset.rs::PtrOffsetSerializer", "ser_raw/src/serializer_traits/ptr_offset.rs", "ser_raw/src/serializer_traits/ptr_writing.rs"]}
{"id": "C28", "title": "Offsets are forward, non-zero and in bounds", "statement": "Every offset PtrOffsetSerializer writes is positive, lies strictly after the slot's own position and is below pos(), so an Option niche (null) is never created or destroyed.", "quantifier": "as C24", "why_tests_cant": "All value shapes.", "anchors": ["ser_raw/src/serializer_traits/ptr_offset.rs::do_overwrite_ptr", "ser_raw/src/serializer_traits/ptr_writing.rs"]}
{"id": "C29", "title": "PureCopySerializer output can be decoded in order", "statement": "For any valid input, a reader that knows only the types and the starting position, and consumes allocations in serialization order ignoring all pointers, recovers a value equal to the input.", "quantifier": "as C24", "why_tests_cant": "No deserializer exists in the repo.", "anchors": ["ser_raw/src/serializers/pure_copy.rs::PureCopySerializer", "ser_raw/src/serializer.rs"]}
{"id": "C30", "title": "PureCopySerializer copies verbatim", "statement": "Every allocation of the input appears in the output byte for byte (pointers, capacities and padding included).", "quantifier": "as C24", "why_tests_cant": "All values.", "anchors": ["ser_raw/src/serializer.rs::push_and_process_slice", "ser_raw/src/serializer.rs::push_raw_slice"]}
{"id": "C31", "title": "All serializers produce the same layout, deterministically", "statement": "For one input and one starting position all four serializer kinds return the same position and end at the same pos(); the outputs of PureCopy (or PtrOffset) are identical in every byte of every value and allocation whatever the initial capacity, growth pattern or allocator (the alignment gaps in between are never written); Complete's differ only in pointer words, by the difference of the buffer addresses.", "quantifier": "as C24, pairs of runs with different capacities, allocators, build modes", "why_tests_cant": "Relational property over pairs of runs.", "anchors": ["ser_raw/src/serializer.rs::serialize", "ser_raw/src/serializer_traits/ptr_writing.rs", "ser_raw/src/serializer_traits/pos_tracking.rs"]}
{"id": "C32", "title": "serialize panics exactly when the output does not fit", "statement": "Serializing a valid value panics if and only if the space the value needs exceeds MAX_CAPACITY; otherwise (allocator permitting) it returns.", "quantifier": "every value, storage and MAX_CAPACITY", "why_tests_cant": "Boundary over all values.", "anchors": ["ser_raw/src/serializer.rs::serialize_value", "ser_raw/src/storage/aligned_vec.rs::grow_for_reserve"]}
{"id": "C33", "title": "Serializing is memory-safe and build-mode independent", "statement": "Serializing any valid value performs no out-of-bounds or misaligned access, no debug assertion or overflow check fires, and debug and release builds produce the same result.", "quantifier": "as C24, debug and release", "why_tests_cant": "UB is not observable by tests.", "anchors": ["ser_raw/src/serialize_impls/ptrs.rs", "ser_raw/src/serializer_traits/ptr_writing.rs", "ser_raw/src/serializer_traits/complete.rs", "ser_raw/src/storage/aligned_vec.rs"]}
{"id": "C34", "title": "Several values in one output", "statement": "Each value serialized with serialize_value before finalize is readable at its returned position in the final storage (rehydratable for Complete, by offset for PtrOffset), no matter how many values follow. (For a zero-sized type of alignment > 1 this needs the buffer address to be aligned for it, as it is once the storage has allocated; in a storage that never allocated it fails: C36.)", "quantifier": "every finite list of values", "why_tests_cant": "All lists and growth patterns between values.", "anchors": ["ser_raw/src/serializer.rs::serialize_value", "ser_raw/src/serializer_traits/pos_tracking.rs::do_serialize_value", "ser_raw/src/serializer_traits/complete.rs::do_finalize"]}
{"id": "C35", "title": "from_storage appends", "statement": "Serializing into an existing non-empty storage leaves the bytes below its original pos() unchanged and returns a position at or after it.", "quantifier": "every prior storage contents", "why_tests_cant": "All prior states.", "anchors": ["ser_raw/src/serializers/complete.rs::from_storage", "ser_raw/src/serializers/ptr_offset.rs::from_storage", "ser_raw/src/serializers/pure_copy.rs::from_storage"]}
{"id": "C36", "title": "The returned position is readable as T", "statement": "For a non-zero-sized T the position returned by serialize is aligned for T and position + size_of::<T>() <= storage.pos(), so storage.read::<T>(pos) meets its safety contract and yields the bytes of the output. A zero-sized T is readable if the storage has allocated; for a zero-sized T with alignment > 1 in a storage that never allocated the read is misaligned (proved by example).", "quantifier": "every T, value, storage", "why_tests_cant": "All types, incl. ZST corner.", "anchors": ["ser_raw/src/serializer.rs::serialize_value", "ser_raw/src/storage/aligned_vec.rs::read", "ser_raw/src/storage/aligned_vec.rs::new"]}
{"id": "C37", "title": "Option/enum variants survive", "statement": "Serialization never changes which variant an enum or Option holds, whether the discriminant is a separate tag, a niche in plain data or the null niche of a pointer field.", "quantifier": "every enum layout the compiler may pick satisfying the niche rules, every value", "why_tests_cant": "Compiler chooses layouts.", "anchors": ["ser_raw/src/serialize_impls/other.rs::Option", "ser_raw_derive/src/enums.rs", "ser_raw/src/serialize_impls/ptrs.rs"]}
{"id": "C38", "title": "Vec/String field offsets are computed correctly", "statement": "For whichever order the compiler stores ptr, capacity and len, the computed offsets of ptr, capacity and len are the real ones (String likewise).", "quantifier": "all six field orders, every element alignment, both pointer widths", "why_tests_cant": "One compiler gives one order.", "anchors": ["ser_raw/src/serialize_impls/ptrs.rs::VecOffsets", "ser_raw/src/serialize_impls/ptrs.rs::OFFSETS_STRING"]}
{"id": "C39", "title": "Empty-vec correction writes exactly ptr and capacity", "statement": "For whichever field order, the correction for an empty Vec/String with spare capacity sets capacity to 0 and ptr to the dangling value and leaves len and all other bytes alone.", "quantifier": "all six field orders, every position", "why_tests_cant": "One compiler gives one order.", "anchors": ["ser_raw/src/serialize_impls/ptrs.rs::overwrite_capacity_and_ptr_for_empty_vec", "ser_raw/src/serialize_impls/ptrs.rs::overwrite_capacity_and_ptr_for_empty_string"]}
{"id": "C40", "title": "BigInt data offset is found", "statement": "Whichever of the two possible field orders BigInt has, the digit vector serialized is the real one.", "quantifier": "both BigInt layouts, all six Vec orders, both pointer widths", "why_tests_cant": "One compiler gives one layout.", "anchors": ["ser_raw/src/serialize_impls/bigint.rs::bigint_data_offset"]}
{"id": "C41", "title": "derive(Serialize) on structs visits every field once, in order", "statement": "The generated serialize_data processes each declared field exactly once in declaration order, with the proxy given by #[ser_with(path)] where present and Serialize otherwise; the macro rejects exactly the structs with a field carrying several or malformed #[ser_with] attributes - except that an attribute syn cannot parse as a Meta (such as #[ser_with(Proxy<T>)]) is silently ignored.", "quantifier": "every struct declaration", "why_tests_cant": "All declarations.", "anchors": ["ser_raw_derive/src/structs.rs"]}
{"id": "C42", "title": "derive(Serialize) on enums visits exactly the active variant's fields", "statement": "The generated match is exhaustive, processes each field of the value's variant exactly once in order and nothing for unit or field-less variants. #[ser_with] on enum fields is ignored, and the macro panics exactly if a struct-like variant has a raw-identifier field name (both proved).", "quantifier": "every enum declaration and value", "why_tests_cant": "All declarations.", "anchors": ["ser_raw_derive/src/enums.rs"]}
{"id": "C43", "title": "derive(Serializer) picks the behaviour named by #[ser_type]", "statement": "Expansion succeeds exactly when there is one well-formed #[ser_type] with a known name, a struct with named fields, and exactly one field for each required tag; the overridden methods are those of the named kind.", "quantifier": "every attribute list and field list", "why_tests_cant": "All declarations.", "anchors": ["ser_raw_derive_serializer/src/common.rs", "ser_raw_derive_serializer/src/lib.rs", "ser_raw_derive_serializer/src/ser_types"]}
{"id": "C44", "title": "Which safe call sequences are memory safe", "statement": "On a serializer which writes no pointers (PureCopySerializer, or position tracking only), no sequence of safe calls whatsoever (push family with any Addr, overwrite_with, serialize_value, storage_mut() operations, clear, shrink_to_fit, pos mapping changes, catch_unwind, finalize) is undefined behaviour. On pointer-writing kinds (storage alignment at least that of pointers) the same holds in debug builds for every call before finalize (for PtrOffsetSerializer including finalize). The claim is false beyond that, with concrete safe programs as witnesses: push with an unrelated address (release), clear + shrink_to_fit before finalize, a push through ptrs_mut(), and, even in debug builds, an address just past the value followed by shrink_to_fit and finalize.", "quantifier": "every sequence of safe calls", "why_tests_cant": "Soundness over all call sequences.", "anchors": ["ser_raw/src/serializer.rs::push", "ser_raw/src/serializer_traits/ptr_writing.rs::do_push_slice", "ser_raw/src/serializer_traits/complete.rs::do_finalize"]}
{"id": "C45", "title": "Hand-written Serialize impls that follow the rules get the reference output", "statement": "For any user-written serialize_data that only calls the serializer with addresses inside the value it is currently serializing (or inside the allocation it is processing), each pointer slot written at most once, serialize_value terminates without UB or debug panic and the output is the reference output: every pushed block copied to its reference position, every pointer slot holding the position or address of the block, nothing else changed.", "quantifier": "every call tree following the documented rules, every serializer kind, storage, architecture, build mode", "why_tests_cant": "All user impls.", "anchors": ["ser_raw/src/serialize.rs::Serialize", "ser_raw/src/serializer.rs::Serializer"]}
{"id": "C46", "title": "Serializing changes only pointers and spare capacities", "statement": "After a session of any kind, every byte of every serialized value and of every allocation it owns is in the output unchanged (padding included), except the words documented as edited: pointers to serialized data for PtrOffsetSerializer and CompleteSerializer, and for CompleteSerializer the capacity (and for empty ones the pointer) of Vecs and Strings with spare capacity.", "quantifier": "every type, value, serializer kind, storage history, architecture, allocator behaviour", "why_tests_cant": "All values and layouts; a stray write anywhere would only be seen by a test of that value.", "anchors": ["ser_raw/src/serialize_impls/ptrs.rs::Vec", "ser_raw/src/serialize_impls/ptrs.rs::String", "ser_raw/src/serializer.rs", "ser_raw/src/serializer_traits/ptr_writing.rs"]}
{"id": "C47", "title": "No reallocation when the output fits", "statement": "If the output of a session fits the capacity the storage already had, serializing neither calls the allocator nor changes the capacity or as_ptr() — also when a call panicked.", "quantifier": "every storage history, list of valid values, serializer kind, configuration, architecture, allocator behaviour", "why_tests_cant": "All values and histories; a hidden reallocation would invalidate addresses taken by the user and is invisible in the output.", "anchors": ["ser_raw/src/storage/aligned_vec.rs::reserve", "ser_raw/src/storage/aligned_vec.rs::push_slice_unaligned", "ser_raw/src/serializers/complete.rs"]}
{"id": "C48", "title": "A serializer survives caught panics", "statement": "If serialize_value panics because MAX_CAPACITY is exceeded and the panic is caught, the serializer can be used on: every value whose call returned (before or after the panic) is complete and correct in the output after finalize, what the storage held before is unchanged, nothing is undefined behaviour, finalize does not panic, and a call panics only if its value did not fit. (For a zero-sized type of alignment > 1 this needs the buffer address to be aligned for it, as it is once the storage has allocated; in a storage that never allocated it fails: C36.)", "quantifier": "every list of valid values, any subset of which panics, any serializer kind, storage history, configuration, architecture, allocator behaviour", "why_tests_cant": "The panic can strike at any push of any value, leaving partial output and recorded pointers behind.", "anchors": ["ser_raw/src/storage/aligned_vec.rs::grow_for_reserve", "ser_raw/src/serializer.rs::serialize_value", "ser_raw/src/serializer_traits/pos_tracking.rs", "ser_raw/src/serializer_traits/complete.rs"]}
{"id": "C49", "title": "Output size and positions depend on the values only", "statement": "The positions serialize_value returns and the final pos() can be computed from the types and abstract values alone: they do not depend on the addresses of the values or their allocations, spare capacity of Vecs, padding bytes, the serializer kind or the allocator. A storage created with_capacity of the computed size is never reallocated. The overhead over the raw bytes is at most alignment padding per allocation.", "quantifier": "every list of valid values in any memories, any two such lists denoting the same values, serializer kind, storage history, architecture, allocator behaviour", "why_tests_cant": "All values and all memory layouts of the same value.", "anchors": ["ser_raw/src/serializer.rs::serialize_value", "ser_raw/src/storage/aligned_vec.rs::push_slice", "ser_raw/src/storage/aligned_vec.rs::with_capacity", "ser_raw/src/serialize_impls/ptrs.rs"]}
{"id": "C50", "title": "ptr(pos) is in bounds and stable while capacity is", "statement": "On a storage with an allocation, ptr(pos)/mut_ptr(pos) for pos <= capacity() does not panic, is not undefined behaviour and gives as_ptr() + pos, aligned for any type pos is aligned for; the byte behind it is the byte of the contents at pos. Any storage operation or serializer session that leaves capacity() unchanged leaves as_ptr() unchanged.", "quantifier": "every storage history, position, storage operation, session (returning or panicking), configuration, architecture, allocator behaviour", "why_tests_cant": "All histories; a moved buffer only shows as a dangling pointer.", "anchors": ["ser_raw/src/storage/mod.rs::ptr", "ser_raw/src/storage/mod.rs::mut_ptr", "ser_raw/src/storage/aligned_vec.rs"]}
{"id": "C51", "title": "Pointer words are determined by the values", "statement": "In a finished output, the positions of all pointer words and the positions they refer to can be computed from the types and abstract values alone; for CompleteSerializer each such word holds as_ptr() plus the computed target, for PtrOffsetSerializer the computed target itself.", "quantifier": "every list of valid values, storage history, architecture, configuration, allocator behaviour", "why_tests_cant": "All types, values and layouts.", "anchors": ["ser_raw/src/serialize_impls/ptrs.rs", "ser_raw/src/serializer_traits/ptr_writing.rs", "ser_raw/src/serializers/complete.rs", "ser_raw/src/serializers/ptr_offset.rs"]}
{"id": "C52", "title": "Serializing what was serialized gives the same output", "statement": "Values in a finished CompleteSerializer output, used in place as &T, are valid inputs denoting the same values. Serializing them again, with any serializer kind, from the same starting position gives the same positions, the same size and byte-for-byte the same blocks, except the pointer words (none for PureCopySerializer). In particular nothing but pointers is ever edited a second time. (For a zero-sized type of alignment > 1 this needs the buffer address to be aligned for it, as it is once the storage has allocated; in a storage that never allocated it fails: C36.)", "quantifier": "every list of valid values, both storage histories, second serializer kind, configurations sharing VALUE_ALIGNMENT and architecture, allocator behaviour", "why_tests_cant": "All types, values and layouts of both runs.", "anchors": ["ser_raw/src/serializers/complete.rs", "ser_raw/src/serialize_impls/ptrs.rs", "ser_raw/src/serializer.rs"]}
{"id": "C53", "title": "Memory and allocation cost of serializing", "statement": "After a session (returned, panicked, or continued after caught panics) the capacity is what it was before, or at most MAX_VALUE_ALIGNMENT, or less than twice pos(). The number of allocator calls of a session is at most log2(capacity()) + 2, and at most log2(new capacity) - log2(old capacity) + 1 if the storage had memory.", "quantifier": "every storage history, list of valid values, serializer kind, configuration, architecture, allocator behaviour", "why_tests_cant": "All values and sizes; a quadratic or over-allocating growth policy passes every functional test.", "anchors": ["ser_raw/src/storage/aligned_vec.rs::grow_for_reserve", "ser_raw/src/storage/aligned_vec.rs::push_slice", "ser_raw/src/serializers/complete.rs"]}
{"id": "C54", "title": "Finished outputs stay", "statement": "What a finished session left in a storage is not changed by anything done to the storage later, except clear and random-access writes into it: pushes, reserve, shrink_to_fit, align, and further serializer sessions of any kind on the same storage, returning, panicking (caught) or abandoned. Offset-based outputs stay readable at their positions and in-order outputs in order at any later time; CompleteSerializer outputs stay readable while as_ptr() is unchanged, and in general when their bytes are put back at the address the buffer had when the session finished. (They are not readable in the storage after the buffer has moved.) (For a zero-sized type of alignment > 1 this needs the buffer address to be aligned for it, as it is once the storage has allocated; in a storage that never allocated it fails: C36.)", "quantifier": "every storage history before, list of valid values, serializer kinds, every later history of operations and sessions, configuration, allocator behaviour", "why_tests_cant": "All later histories, including later sessions that panic half-way or are never finalized.", "anchors": ["ser_raw/src/serializers/complete.rs::from_storage", "ser_raw/src/serializer_traits/complete.rs", "ser_raw/src/storage/aligned_vec.rs"]}
{"id": "C55", "title": "Batching does not matter", "statement": "Serializing values in one session, or the first ones in one session and the others in a second session on the same storage, gives the same positions, the same pos() and the same bytes (CompleteSerializer: if the buffer is at the same address at the ends of the sessions). If the allocator does not fail, the one session succeeds exactly when the two do.", "quantifier": "every storage history, every two lists of valid values, serializer kind, configuration, allocator behaviour", "why_tests_cant": "All values and splits; all capacities at which one of the sessions may panic.", "anchors": ["ser_raw/src/serializer.rs", "ser_raw/src/serializers/complete.rs", "ser_raw/src/serializers/ptr_offset.rs"]}
{"id": "C56", "title": "Panics of hand-written impls", "statement": "If serialize_data of a hand-written Serialize impl panics - at any point of its calls, inside any depth of push_and_process closures - and the caller catches it and goes on with the same serializer (more values, more panics, finalize), nothing is undefined and finalize does not panic. If everything that was pushed fits, the final output is byte for byte the one of the same session with impls that return at the point where they panicked, calls that returned give the positions of their values. In any case what was in the storage before is untouched, and the whole output of each call that returned is as if nothing else had happened (pointers right for the final buffer); a call that gave no position either panicked itself or did not fit.", "quantifier": "every storage history, list of values with hand-written impls following the documented rules, every panic point and nesting, serializer kind, configuration, allocator behaviour", "why_tests_cant": "All panic points (each serializer call of each impl), with the position mapping left unrestored and pointers recorded for unfinished values.", "anchors": ["ser_raw/src/serializer_traits/ptr_writing.rs::do_push_and_process_slice", "ser_raw/src/serializer_traits/pos_tracking.rs", "ser_raw/src/serializer_traits/complete.rs::do_finalize", "ser_raw/src/serialize.rs::Serialize"]}
{"id": "C57", "title": "Data bytes are determined by the values", "statement": "In a finished output of any serializer, the positions and contents of all data bytes - bytes of primitives, lengths of vectors and strings, contents of strings, signs - can be computed from the types and abstract values alone; with CompleteSerializer so can capacities and pointers of empty vectors. Hence outputs are reproducible: two sessions on inputs in different memories denoting the same values, into storages with the same VALUE_ALIGNMENT and pos() (any other alignment parameters, capacity, allocator, build), return the same positions and have the same size and data bytes; their pointers refer to the same positions.", "quantifier": "every list of valid values, pair of inputs denoting them, storage history, serializer, configuration, allocator behaviour", "why_tests_cant": "All types, values, memories the values may lie in, and buffer addresses.", "anchors": ["ser_raw/src/serializer.rs", "ser_raw/src/serialize_impls/multiples.rs", "ser_raw/src/serializers"]}
{"id": "C58", "title": "Serialization is lossless", "statement": "Two sessions with serializers of the same kind on values of the same types, starting at the same pos(), that return the same positions and whose outputs have the same bytes (for CompleteSerializer: at the same address) were given the same values: no two different values have the same output.", "quantifier": "every pair of lists of valid values of any types, storage histories, serializer, configurations with the same VALUE_ALIGNMENT, allocator behaviour", "why_tests_cant": "All pairs of values: a test compares finitely many.", "anchors": ["ser_raw/src/serializer.rs", "ser_raw/src/serializers"]}
{"id": "C59", "title": "One serializer for everything", "statement": "A single serializer may be used, in any order and any number of times, for serialize_value on values with the crate's own and derived impls, for serialize_value on values with hand-written impls that follow the rules (and may panic), and for direct storage operations through storage_mut() — pushes, push_empty, reserve, alignment, shrink_to_fit, and random-access writes that stay off the serialized values (e.g. a header reserved first and filled in later) — with every panic caught. No step is undefined behaviour and finalize always works. Afterwards every completed typed value is readable at its position (through real pointers, offsets, or in order, depending on the serializer), every completed hand-written value has its reference output, every directly pushed or written byte is there unless later written over, the outputs lie one after another, and what the storage held before is untouched. A call gives no position only if its impl panicked or the value did not fit. (For a zero-sized type of alignment > 1 this needs the buffer address to be aligned for it, as it is once the storage has allocated; in a storage that never allocated it fails: C36.)", "quantifier": "all serializer kinds, all configurations, all reachable storages, all sequences of permitted actions of any length, all values, all allocator behaviours", "why_tests_cant": "unbounded interleavings of calls, panics, buffer moves (also shrinking mid-session) and direct writes", "anchors": ["ser_raw/src/serializer.rs:Serializer", "ser_raw/src/serializer_traits/complete.rs", "ser_raw/src/storage/aligned_vec.rs", "ser_raw/src/pos.rs"]}
{"id": "C60", "title": "A storage that serializers have used is as good as new", "statement": "A storage that any serializers have used — for any mixture of values, hand-written implementations and direct storage operations, finished or dropped half-way, with panics caught — still has every property of a storage used alone: position, capacity and alignments consistent; buffer aligned and exactly what it owns; every permitted operation free of undefined behaviour; push, push_empty, reserve (with its exact growth), shrink_to_fit, random-access write and read do exactly what they promise; dropping it frees everything. (For a zero-sized type of alignment > 1 this needs the buffer address to be aligned for it, as it is once the storage has allocated; in a storage that never allocated it fails: C36.)", "quantifier": "all legal storage types, allocators and architectures; all programs; all sequences of storage operations and serializer uses of all kinds, each left at any moment; all further operations", "why_tests_cant": "Tests use a storage with one serializer; the claim is about every history of uses, including those cut short.", "anchors": ["ser_raw/src/storage/aligned_vec.rs: AlignedVec", "ser_raw/src/serializer.rs: storage_mut, finalize", "ser_raw/src/storage/mod.rs: Storage, RandomAccessStorage"]}
{"id": "C61", "title": "Custom Storage implementations get correct alignment from the trait", "statement": "For every user-written implementation of `Storage` that keeps the contract of the trait's required methods, all the trait's default methods are right: safe calls never leave the contract of set_pos / push_slice_unchecked / with_capacity_unchecked (no undefined behaviour, no debug assertion, panics only for lack of capacity); push returns a position aligned for the type, the bytes are there, nothing stored earlier changes; slices pushed stay where they are and never overlap until `clear`; a panicking call loses nothing. AlignedVec is such an implementation, and so is one whose `reserve` moves the position. (Findings: push_empty of a type whose size is not a multiple of VALUE_ALIGNMENT breaks set_pos's contract; `reserve` may alter pos only to multiples of MAX_VALUE_ALIGNMENT.)", "quantifier": "all implementations of the required methods satisfying the contract, all const parameters, all histories of safe calls with caught panics, all types, slices and contents", "why_tests_cant": "a test exercises one implementation (AlignedVec); the claim is about every implementation a user may write, and every history", "anchors": ["ser_raw/src/storage/mod.rs: Storage, with_capacity, push_slice, push_empty_slice, align_for, align_after, align_after_any, align, clear"]}
{"id": "C62", "title": "Serializers derived over a custom storage are correct for every conforming storage", "statement": "For any user implementation of `RandomAccessStorage` that keeps the trait's contract and whose `reserve` stays in place, a serializer derived over it with kind PureCopy, PosTracking or PtrOffset never causes undefined behaviour or a failed debug assertion on valid values; PtrOffset output can be read back by taking each pointer as a position; PureCopy/PosTracking output can be read back in order; whatever the storage held before stays in place on success and on panic; the output is byte for byte that of `AlignedVec`; hand-written `Serialize` implementations that follow the rules get the reference output.", "quantifier": "All storage implementations (any state type), all histories of safe storage calls and serializer sessions on them, all type definitions, all lists of valid values, all three serializer kinds", "why_tests_cant": "A test can only use one storage implementation; the claim is about every implementation a user might write.", "anchors": ["ser_raw/src/storage/mod.rs: trait Storage, RandomAccessStorage", "ser_raw/src/serializer_traits/ptr_offset.rs: do_overwrite_ptr", "ser_raw/src/serializer_traits/ptr_writing.rs", "ser_raw/src/serializer_traits/pos_tracking.rs", "ser_raw/src/serialize_impls/multiples.rs", "ser_raw_derive_serializer/src/lib.rs"]}
{"id": "C63", "title": "Complete serializers derived over a custom storage are correct for every conforming contiguous storage", "statement": "For any user implementation of `ContiguousStorage + RandomAccessStorage` that keeps the traits' contracts and whose `reserve` keeps the position, wherever its buffer is and however often it moves, a serializer derived over it with kind Complete never causes undefined behaviour or a failed debug assertion on valid values; after `finalize` every value is readable in place at `as_ptr() + pos`, following absolute pointers inside the buffer only, with capacities equal to lengths; whatever the storage held before stays at its position on success and on panic; positions and length are those of `AlignedVec`, and bytes too if the buffer is at the same address; hand-written `Serialize` implementations that follow the rules get the reference output. (For a zero-sized type of alignment > 1 this needs the buffer address to be aligned for it, as it is once the storage has allocated; in a storage that never allocated it fails: C36.)", "quantifier": "All storage implementations (any state type, any sequence of buffer addresses), all histories of safe storage calls and serializer sessions of all four kinds on them, all type definitions, all lists of valid values", "why_tests_cant": "A test can only use one storage implementation and the addresses one allocator happens to return; the claim is about every implementation and every pattern of moves.", "anchors": ["ser_raw/src/storage/mod.rs: trait ContiguousStorage, RandomAccessStorage", "ser_raw/src/serializer_traits/complete.rs: do_overwrite_ptr, do_finalize", "ser_raw/src/pos.rs: PtrGroup::correct_ptrs", "ser_raw_derive_serializer/src/ser_types/complete.rs", "ser_raw/src/serialize_impls/multiples.rs"]}
{"id": "C64", "title": "Derived serializers over storages whose reserve moves the position", "statement": "A serializer derived over any correct RandomAccessStorage whose reserve may move the position forward (for example a storage in chunks which are never moved) is right: valid values are serialized without undefined behaviour or failed debug assertion; with ptr_offset a reader that takes pointers to be positions finds every value at the position serialize_value returned, its blocks after it in order, aligned, without overlap and before the end, and different values are apart; with pure_copy and pos_tracking every value and the allocations it owns are copied verbatim in order; what was stored before stays, also after a panic; hand-written Serialize implementations that follow the rules get every slice at the next aligned place the storage chose.", "quantifier": "every storage implementation that keeps the documented contract (reserve may alter pos), every reachable state of it, every kind, every well-formed type program, every list of valid values, every outcome of reserve", "why_tests_cant": "there are unboundedly many storage implementations and ways to place the allocations", "anchors": ["ser_raw/src/storage/mod.rs: Storage::push_slice, Storage::reserve, RandomAccessStorage::write_slice", "ser_raw/src/serializer_traits/ptr_offset.rs: PtrOffset::do_overwrite_ptr", "ser_raw/src/serializer_traits/ptr_writing.rs: PtrWriting", "ser_raw_derive_serializer/src/lib.rs: derive_serializer"]}
{"id": "C65", "title": "Derived serializers over custom storages survive caught panics and mixed use", "statement": "A serializer derived over any correct RandomAccessStorage (reserve may move the position), used in any order for values with the crate's own and derived implementations, values with hand-written implementations (some of which panic) and direct storage operations, with every panic caught by the caller, never has undefined behaviour; it panics only for lack of room, because the hand-written implementation panics or because the size of push_empty_slice overflows. With ptr_offset every value whose call returned a position is found there at the end, its blocks within what its own call appended; with pure_copy and pos_tracking it and the allocations it owns are copied verbatim; the output of hand-written implementations that returned and bytes put directly are there too; what was stored before is untouched; outputs lie one after the other; and the storage can go on being used, by other serializers too.", "quantifier": "every storage implementation that keeps the documented contract, every state reached by storage operations and such sessions (finished or not), every kind but complete, every sequence of permitted actions, every point at which a call panics", "why_tests_cant": "there are unboundedly many storage implementations, sequences of actions and panic points", "anchors": ["ser_raw/src/serializer.rs: Serializer::serialize_value, storage_mut", "ser_raw/src/storage/mod.rs: Storage, RandomAccessStorage::write_slice", "ser_raw/src/serializer_traits/ptr_writing.rs: PtrWriting", "ser_raw/src/serializer_traits/pos_tracking.rs: PosTracking", "ser_raw_derive_serializer/src/lib.rs: derive_serializer"]}
{"id": "C66", "title": "Complete serialization over custom contiguous storages survives caught panics and mixed use", "statement": "A serializer of kind complete over any correct ContiguousStorage, used in any order for values with the crate's own and derived implementations, values with hand-written implementations (some of which panic) and direct storage operations, with every panic caught by the caller, never has undefined behaviour; it panics only for lack of room, because the hand-written implementation panics or because the size of push_empty_slice overflows; and finalize always works. After finalize every value whose call returned a position is found at as_ptr() plus that position with correct addresses, although calls before and after it panicked half-way and the buffer moved in between; the output of hand-written implementations that returned and bytes put directly are there too, finalize altering none of the latter; what was stored before is untouched; outputs lie one after the other; and the storage can go on being used, whether the serializer was finalized or dropped. (For a zero-sized type of alignment > 1 this needs the buffer address to be aligned for it, as it is once the storage has allocated; in a storage that never allocated it fails: C36.)", "quantifier": "every contiguous storage implementation that keeps the documented contract, every state reached by storage operations and such sessions of all four kinds (finalized or dropped), every sequence of permitted actions, every point at which a call panics, every way the buffer moves", "why_tests_cant": "there are unboundedly many storage implementations, sequences of actions, panic points and reallocation patterns", "anchors": ["ser_raw/src/serializers/complete.rs: CompleteSerializer", "ser_raw/src/serializer.rs: Serializer::serialize_value, storage_mut, finalize", "ser_raw/src/storage/mod.rs: ContiguousStorage, RandomAccessStorage::write_slice", "ser_raw/src/pos.rs: Ptrs, PtrGroup", "ser_raw/src/serializer_traits/ptr_writing.rs: PtrWriting", "ser_raw_derive_serializer/src/lib.rs: derive_serializer"]}
{"id": "C67", "title": "Over custom storages too, serialization panics exactly when the output does not fit", "statement": "Let a storage written by a user keep the documented contract, with a reserve that panics only if MAX_CAPACITY would be exceeded and does not abort the process. A serializer of any of the four kinds derived over it returns if the space the values need, counted from the position, fits MAX_CAPACITY, and then ends exactly there; otherwise it panics for lack of capacity. The same holds for values with hand-written implementations that follow the rules of the unsafe methods. In a session that mixes such values, panicking hand-written implementations and direct storage operations, each call gives a position exactly if its value fits after what is there (and its implementation does not itself panic). AlignedVec is such a storage if its allocator does not fail.", "quantifier": "every storage implementation that keeps the contract with an exact reserve, every state reached by storage operations and sessions, every list of valid values, all four kinds", "why_tests_cant": "there are unboundedly many storage implementations, values and limits; tests can only try a few sizes around one limit", "anchors": ["ser_raw/src/storage/mod.rs: Storage::reserve, Storage::push_slice, Storage::MAX_CAPACITY", "ser_raw/src/serializer.rs: Serializer::serialize_value", "ser_raw/src/serializer_traits/ptr_writing.rs: PtrWriting", "ser_raw/src/storage/aligned_vec.rs: AlignedVec::reserve", "ser_raw_derive_serializer/src/lib.rs: derive_serializer"]}
{"id": "C68", "title": "A value makes the same calls on every serializer", "statement": "The `Serialize` implementations of the crate and of its derive macro are generic in the serializer: for a given valid value there is one fixed tree of calls of serializer methods (push_and_process, push_and_process_slice, push_slice, overwrite_with, and overwrite inside the last) with fixed arguments, and serialize_data makes exactly these calls on every implementation of Serializer - the crate's, a derived one or a hand-written one, whatever its methods do. The calls follow the rules for Serialize implementations and no address computation in them overflows.", "quantifier": "all implementations of the trait Serializer (any state, any Addr, any behaviour of each method), all type definitions and valid values, all targets", "why_tests_cant": "Tests run the implementations on the serializers that exist; the claim is about every serializer anyone can write.", "anchors": ["ser_raw/src/serializer.rs:Serializer", "ser_raw/src/serialize_impls/ptrs.rs", "ser_raw/src/serialize_impls/multiples.rs", "ser_raw/src/serialize_impls/bigint.rs", "ser_raw/src/pos.rs:Addr"]}
{"id": "C69", "title": "A hand-written serializer with only storage access is a pure copy serializer", "statement": "A serializer written by hand with only storage, storage_mut and into_storage (the documentation's manual implementation), over any storage, with any Addr type and any further fields, behaves as a pure copy serializer on that storage: for any valid values, and for any calls of hand-written Serialize implementations, the outcome, the positions returned and the storage afterwards are those of a PureCopy serializer, and its other fields are unchanged.", "quantifier": "all storages, all serializer states and ways of holding the storage, all Addr types, all valid values and all hand-written implementations, all outcomes", "why_tests_cant": "The default methods are exercised only by the crate's own serializers; a user's serializer, storage and fields are unknown to the tests.", "anchors": ["ser_raw/src/serializer.rs:Serializer", "ser_raw/src/serializer.rs:push_and_process_slice", "ser_raw/src/serializer.rs:overwrite_with"]}
{"id": "C70", "title": "Serializers assembled from the ser_traits are right, whatever they do with corrections", "statement": "A serializer put together by hand from the traits in ser_traits over any correct random-access storage - position tracking only or pointers written as offsets; corrections (overwrite) ignored, applied at once, or recorded with their position for the deserializer to apply - has only allowed outcomes on valid values (returns, capacity panic, abort). If pointers are written, a reader that first applies the recorded corrections finds every value at the position returned for it, and unless corrections are ignored every capacity equals the length and empty Vecs have dangling pointers. Without pointers (and corrections not applied) the output can be read in order. Nothing stored before is touched, recording or applying corrections needs no room in the output, and hand-written Serialize implementations get the reference output, provided - when recording - that they do not correct a place whose pointer is written later. The combination that writes offsets and ignores corrections is the derived ptr_offset serializer.", "quantifier": "all six combinations, all conforming storages and reachable storage states, all type definitions and valid values, all hand-written implementations following the rules, all outcomes", "why_tests_cant": "No serializer in the crate records corrections or combines offsets with corrections; the documentation allows both.", "anchors": ["ser_raw/src/serializer_traits/writable.rs:Writable", "ser_raw/src/serializer_traits/ptr_writing.rs:PtrWriting", "ser_raw/src/serializer_traits/ptr_offset.rs:PtrOffset", "ser_raw/src/serializer_traits/pos_tracking.rs:PosTracking", "ser_raw/src/serializer.rs:overwrite", "ser_raw/src/serializer.rs:overwrite_with"]}
{"id": "C71", "title": "The output of every kind of serializer can be read in order", "statement": "Whatever the serializer does with pointers and capacities - leaves them (PureCopy, PosTracking), writes pointers as offsets (PtrOffset), writes absolute pointers and corrects capacities (Complete), as a derived serializer over any correct storage or assembled from the ser_traits with corrections ignored, applied or recorded - a reader that knows only the types of the serialized values and where the output started, follows no pointer and uses no capacity, recovers all values in order and ends exactly at the position. This stays so whatever happens to the storage later (short of clear and overwriting), even when a Complete output's own pointers have gone stale because the buffer moved; and the outputs of several sessions of different kinds in one storage read as one. So a deserializer of the pure-copy format reads the output of all of them; Vec and String lengths, enum discriminants and Option niches survive the rewriting.", "quantifier": "all four kinds and all assembled combinations, all storages (AlignedVec, conforming custom ones) in any reachable state, all type definitions, all valid lists of values", "why_tests_cant": "Requires that pointer and capacity rewriting never touches a length, a discriminant or anything else the reader looks at, for every type; and that rewritten niche-carrying words stay on the same side of the niche.", "anchors": ["ser_raw/src/serializers/complete.rs:CompleteSerializer", "ser_raw/src/serializers/ptr_offset.rs:PtrOffsetSerializer", "ser_raw/src/serializers/pure_copy.rs:PureCopySerializer", "ser_raw/src/serialize_impls/multiples.rs:Serialize for Vec", "ser_raw/src/serializer_traits/ptr_writing.rs:PtrWriting"]}
{"id": "C72", "title": "What a serializer keeps besides its storage is bounded by its output", "statement": "A CompleteSerializer keeps a record of the pointers it wrote until finalize. At every moment of a session - typed and hand-written values, direct storage operations, caught panics - the recorded positions, one machine word each, take no more room than the bytes output in the session so far (so at most isize::MAX bytes: the internal Vec never overflows its capacity). No group is put aside empty; the number of groups is at most the number of allocator calls of the session, and logarithmic in the storage's capacity when the storage is not shrunk. Serializers of the other kinds record nothing.", "quantifier": "all four kinds, all storages reachable by any history, all sequences of actions including panicking ones, all allocators, at every point", "why_tests_cant": "A test sees only particular sessions; the bound needs that no pointer slot is ever recorded twice and that a group is closed only after the buffer moved, for every allocator behaviour and every interleaving with shrink_to_fit and panics.", "anchors": ["ser_raw/src/serializer_traits/complete.rs:Complete::do_overwrite_ptr", "ser_raw/src/pos.rs:Ptrs", "ser_raw/src/pos.rs:PtrGroup", "ser_raw/src/serializers/complete.rs:CompleteSerializer"]}
{"id": "C73", "title": "Serializing reads nothing but the value", "statement": "What a serializer does with a value - outcome, positions, output, final state - depends only on the bytes which belong to the value: its own size_of bytes and the elements (not the spare capacity) of the allocations it owns, directly or through other allocations. Whatever else is in memory - neighbouring values, freed or unmapped memory, spare capacity of vectors - is neither read nor copied: with every other byte uninitialised the session does exactly the same. This holds for the crate's serializers, for serializers derived over other storages and for hand-written serializers, as long as their own methods look only at the bytes of the slices they are given; with hand-written serialize_data, only the value and the slices passed to the serializer are read.", "quantifier": "all types and layouts, all values which can be walked, all memories agreeing on the footprint, all four kinds and all serializers satisfying the stated condition, all states", "why_tests_cant": "A test cannot see a read of a byte outside the value unless a sanitizer happens to catch it, and cannot vary the rest of memory over all contents.", "anchors": ["ser_raw/src/serialize_impls/ptrs.rs", "ser_raw/src/serialize_impls/multiples.rs", "ser_raw/src/serialize_impls/other.rs", "ser_raw/src/serialize_impls/bigint.rs", "ser_raw/src/serializer.rs:Serializer", "ser_raw/src/storage/aligned_vec.rs:AlignedVec"]}
{"id": "C74", "title": "Hand-written implementations inside other types, and other types inside them", "statement": "Types with a hand-written serialize_data may be used as fields, elements, pointees or variants of types with the crate's or derived implementations, and a hand-written serialize_data may call the serialize_data of any other types between and inside its own calls to push, push_slice, push_and_process, push_raw and overwrite_with. If each hand-written implementation by itself follows the rules (its pushed slices are real, pointers lie in the value being processed and are written once, nested values lie in it) and its output can be read back given that the nested values can, then every such session does what it says with every serializer and every storage state: no undefined behaviour, the prior content of the storage is kept, and every value can be read back from the output of CompleteSerializer (following pointers) and PtrOffsetSerializer (following offsets). The documentation's examples (Foo, MyString with its length and bytes in one place) and a boxed slice meet the requirements.", "quantifier": "all programs mixing derived, built-in and hand-written implementations in any nesting, all hand-written implementations meeting the stated requirements, all valid values, all storages reachable by the API, all four serializers, all allocators", "why_tests_cant": "The interactions of a user's implementation with every possible surrounding and nested type, at all depths and alignments, cannot be enumerated.", "anchors": ["ser_raw/src/serialize.rs:Serialize", "ser_raw/src/serialize.rs:SerializeWith", "ser_raw/src/serializer.rs:Serializer", "ser_raw/src/serialize_impls/ptrs.rs", "ser_raw_derive/src/structs.rs"]}
{"id": "C75", "title": "Implementations that catch panics inside serialize_data", "statement": "A hand-written serialize_data may panic, catch panics of its own and of the storage (capacity limit) with catch_unwind around any of its calls, inside or outside of push_and_process closures, nested in any way, and go on with other calls on the same serializer; the caller may catch the panics of serialize_value too. If, whatever fits, the calls made follow the rules and the implementation puts the position mapping back after catching a panic that may come out of a push_and_process closure (PureCopySerializer has none), the session never has undefined behaviour, finalize does not panic, which calls return and with what position, the end of the output and every byte of it are exactly determined: a push that would go over the capacity limit leaves only alignment, a panic ends the calls up to the next catch_unwind, and everything pushed and every pointer written before it stays and is right in the final buffer. Prior contents of the storage are untouched. Without putting the mapping back, a later push through a pointer of the value itself writes to a wrong place (undefined behaviour in release builds, a silently lost pointer in debug builds).", "quantifier": "all implementations made of pushes, overwrites, panics and catch_unwind nested to any depth, all values, all storages reachable by the API and all capacity limits, all four serializers, all allocators", "why_tests_cant": "A panic can happen at every push, at every depth, depending on the capacity left; the combinations of what fits and what is caught where cannot be enumerated.", "anchors": ["ser_raw/src/serialize.rs:Serialize", "ser_raw/src/serializer.rs:Serializer", "ser_raw/src/serializer_traits/pos_tracking.rs:do_push_and_process_slice", "ser_raw/src/serializer_traits/ptr_writing.rs:do_push_and_process_slice", "ser_raw/src/storage/aligned_vec.rs:grow_for_reserve", "ser_raw/src/storage/mod.rs:push_slice"]}
{"id": "C76", "title": "Implementations may push temporaries, and where anything is in memory makes no difference", "statement": "A hand-written serialize_data may push temporaries, values which exist only during the call that pushes them, such as the length and the bytes in the BigUintProxy example of SerializeWith: the output has, at the position returned and pointed to, the bytes each slice had when it was pushed, even if other slices were pushed from the same address with other contents before or after, in this value or in others. The whole output and all positions are those of the reference serializer applied to the bytes at the time of each call; never undefined behaviour. Consequently the addresses of the values and of everything they push make no difference: the same calls on the same data at other addresses return the same positions, and leave the same storage byte for byte, or panic or fail in the same way.", "quantifier": "all implementations made of push, push_slice, push_and_process, push_and_process_slice, push_raw, push_raw_slice, push_raw_bytes and overwrites nested to any depth, with arbitrary bytes at arbitrary (also repeated) addresses, all values, all storages reachable by the API, all four serializers, all allocators", "why_tests_cant": "Which temporaries share addresses is up to compiler, stack and allocator; a test runs with one assignment of addresses.", "anchors": ["ser_raw/src/serialize.rs:SerializeWith", "ser_raw/src/serializer.rs:Serializer::push", "ser_raw/src/serializer.rs:Serializer::push_raw_bytes", "ser_raw/src/pos.rs:PosMapping::pos_for_addr", "ser_raw/src/serializer_traits/ptr_writing.rs:do_push_slice", "ser_raw/src/serializer_traits/ptr_writing.rs:do_push_and_process_slice"]}
{"id": "C77", "title": "Implementations and callers may decide by the positions they are told", "statement": "A hand-written serialize_data may choose its next calls, and the data it pushes or overwrites, by the positions that push methods return, by ser.pos(), by ser.pos_for(&field), by what a push_and_process closure left in captured variables, or by anything else it reads from the serializer; and a caller may choose the next value by the positions serialize_value returned. Whatever the choices, positions and output of the run are those of the reference serializer on the calls that were made, so that, for example, a table of returned positions in the output has the positions at which the strings are, and an offset relative to a field, computed with pos_for and written with overwrite, leads from that field to what was pushed. The only further panic is the overflow check when pos_for is asked about an address outside of the value being processed. If only positions are looked at, the calls made, and with them the output, are determined by the end position of the storage and VALUE_ALIGNMENT alone: not by which serializer it is, by the allocator, or by the capacity or contents of the storage. Never undefined behaviour if the calls made follow the rules.", "quantifier": "all decision trees over all calls of a serializer (branching on returned positions and on the whole serializer state, unbounded), all callers, all storages reachable by the API, all four serializers, all allocators, debug and release", "why_tests_cant": "What is pushed next depends on all earlier results; a test follows one branch of the decisions.", "anchors": ["ser_raw/src/serializer.rs:Serializer::push_raw_bytes", "ser_raw/src/serializer.rs:Serializer::push", "ser_raw/src/serializer.rs:Serializer::serialize_value", "ser_raw/src/serializer.rs:Serializer::pos", "ser_raw/src/storage/mod.rs:Storage::push_slice"]}
{"id": "C78", "title": "Storages and serializers that share a heap do not affect one another", "statement": "Any number of storages and serializers, of any types and kinds, may be in use at once in one program, allocating from one heap among the blocks of the rest of the program, with calls on them in any order and panics caught anywhere. Each one is then always in a state, with contents, that it could have reached by the same uses alone; each permitted call has the result, panic or abort it would have alone, and never undefined behaviour; a call on one changes no block that is not its own, no other variable, and leaks nothing; two storages never own the same block; a storage's bytes stay as they are while only others are active; and values finalized by a CompleteSerializer are readable in its final buffer whatever happened in between.", "quantifier": "all programs with any number of storages and serializers (all const parameters, all kinds), all interleavings of method calls and of allocations, frees and writes of the rest of the program (unbounded), all allocators that return memory free of live blocks, all permitted calls incl. panicking ones", "why_tests_cant": "The interleavings, allocators and the number of storages are unbounded; a write through a stale or wrong pointer shows only under particular heap layouts.", "anchors": ["ser_raw/src/storage/aligned_vec.rs:AlignedVec::alloc", "ser_raw/src/storage/aligned_vec.rs:AlignedVec::realloc", "ser_raw/src/storage/aligned_vec.rs:AlignedVec::dealloc", "ser_raw/src/storage/aligned_vec.rs:AlignedVec::write_slice", "ser_raw/src/storage/aligned_vec.rs:Drop::drop", "ser_raw/src/pos.rs:PtrGroup::correct_ptrs", "ser_raw/src/storage/aligned_vec.rs:Send", "ser_raw/src/storage/aligned_vec.rs:Sync"]}
{"id": "C79", "title": "A finished output can be moved or loaded anywhere", "statement": "The output of a CompleteSerializer session may be copied to any address aligned for the values: adding to each of its pointer words the difference between the new and the old address makes every serialized value readable at the new address plus its position. The output of a PtrOffsetSerializer session may be loaded anywhere the same way, adding the address to each offset, and that of a PureCopySerializer by filling in the pointers. Which words those are and where they point follows from the values alone; they never share a byte, so a loop that adjusts them in place one after the other is right, and touches nothing outside the copy. In particular a storage that was used further and moved after a session can be repaired in place.", "quantifier": "all programs of types, values, storages (new or used), capacities and movement histories, all kinds of serializer, all target addresses aligned for the values, all memories holding the copy", "why_tests_cant": "Ranges over all values and all target addresses; a wrong pointer word, one listed twice or one missed shows only for particular nesting shapes and only after moving.", "anchors": ["ser_raw/src/serializers/complete.rs:CompleteSerializer", "ser_raw/src/serializers/ptr_offset.rs:PtrOffsetSerializer", "ser_raw/src/serializers/pure_copy.rs:PureCopySerializer", "ser_raw/src/serializer_traits/complete.rs", "ser_raw/src/serializer_traits/ptr_offset.rs", "ser_raw/src/pos.rs:PosMapping"]}
{"id": "C80", "title": "What a serializer left stays readable whatever else the storage is used for", "statement": "After a serializer used for anything (crate, derived and hand-written implementations, direct storage operations, caught panics) is finished, its storage may go on being used: storage operations that succeed or panic, growth, shrinking, reservations, further serializers of any kind used for anything, finished or dropped half-way. As long as nobody clears the storage or writes over the bytes of one value by random access, each value stays what it was: offsets lead to it, in-order reading finds it, a CompleteSerializer's pointers lead to it while the buffer has not moved, and after the buffer has moved adjusting just that value's pointer words in place repairs it without touching any byte outside the output of its call. Bytes pushed directly and the output of hand-written implementations stay too. The bytes of the one call suffice to rebuild the value anywhere else.", "quantifier": "all programs of types, all mixed histories of a serializer, all later histories of the storage (operations, panics, finished and dropped serializers of all kinds, in any order and number), all sets of untouched bytes, all target addresses", "why_tests_cant": "Ranges over pairs of unbounded histories; a later session that writes into an earlier output (a stale fix-up record, a wrong position after a caught panic) shows only for particular histories.", "anchors": ["ser_raw/src/serializer.rs:from_storage,finalize", "ser_raw/src/storage/mod.rs:Storage,RandomAccessStorage", "ser_raw/src/storage/aligned_vec.rs:AlignedVec", "ser_raw/src/serializers/complete.rs", "ser_raw/src/serializers/ptr_offset.rs", "ser_raw/src/serializers/pure_copy.rs"]}
{"id": "C81", "title": "Output can be written out while the serializer is running, and a file that lost bytes never reads wrongly", "statement": "During a session (crate, derived and hand-written implementations, direct storage operations other than clear, caught panics) no byte below the current position changes later in the session, except through a random-access write to it, also when the buffer moves; finalize changes no byte, or, for a CompleteSerializer, none outside the values and, within a value's blocks, none outside its pointers. So output can be streamed out as it grows. If the process stops at any moment, before finalize, and the first n bytes have been written out, every value whose call ended at or before n can be read from them (by offsets, or in order). If bytes of the output are lost but none is altered, whatever a reader still finds at the position of a value is that value.", "quantifier": "all programs of types, all mixed histories of a serializer and all ways it goes on, all moments, all prefixes, all sets of lost bytes", "why_tests_cant": "Ranges over all crash points of all histories and all subsets of the output bytes.", "anchors": ["ser_raw/src/serializer.rs:finalize,serialize_value", "ser_raw/src/storage/aligned_vec.rs:AlignedVec", "ser_raw/src/serializers/complete.rs", "ser_raw/src/serializers/ptr_offset.rs", "ser_raw/src/serializers/pure_copy.rs"]}
{"id": "C82", "title": "Types with hand-written implementations inside other types, among everything else one serializer is used for", "statement": "A value whose type has a hand-written Serialize implementation, or contains such types at any depth, or is passed on to by them, can be serialized at any point of a session in which the same serializer is also used for other values, for implementations that panic (caught) and for direct storage operations. The call is permitted whatever was done before, and if it returned a position, the value is read at that position: from the buffer of a CompleteSerializer after finalize and after whatever else is done with the storage while the buffer is not moved, from the bytes of a PtrOffsetSerializer after finalize and after whatever else is done, and, if the process stops before finalize, from any written-out prefix that contains the call's output.", "quantifier": "all hand-written implementations that meet their requirements, all types built from them, all values, all mixed histories before, between and after, all crash points", "why_tests_cant": "Ranges over user code, all values and all histories.", "anchors": ["ser_raw/src/serialize.rs:Serialize", "ser_raw/src/serializer.rs:serialize_value,push_and_process_slice,overwrite_with", "ser_raw/src/serializers/complete.rs", "ser_raw/src/serializers/ptr_offset.rs"]}
{"id": "C83", "title": "Any program as serialize_data, in any history of one serializer", "statement": "A hand-written Serialize implementation may be any program: at each point it may look at the serializer and decide by what it sees, use the positions it was told, push temporaries, leave values in captured variables, call serialize_data of other values, and panic, inside closures at any depth. One serializer may be used for values with such implementations, for values with the crate's own and derived implementations and for direct storage operations, in any order, with every panic caught by the caller, on a storage used in these ways before. As long as the calls that are actually made follow the rules: nothing is undefined behaviour, no panic gets through, only allocation failure aborts, and finalize works. Each call on a program that returned a position left the reference output of the calls it made, at the position returned; one without a panic of its own fails only if its output does not fit. Each other value whose call returned a position can be read back at that position, whatever the programs before, between and after it did, panicked or not; bytes put directly are there; what the storage held before is untouched. A call that is stopped by a panic of the program leaves the storage and the pointers to be corrected as if the program had returned at that point.", "quantifier": "all programs, all values, all orders of calls, storage operations and caught panics, all starting storages, all four serializers", "why_tests_cant": "Ranges over arbitrary user code, the answers it gets, its panics, and all histories.", "anchors": ["ser_raw/src/serialize.rs:Serialize", "ser_raw/src/serializer.rs:serialize_value,push_and_process_slice,push_slice,push_raw_slice,push_raw_bytes,overwrite_with", "ser_raw/src/serializers/complete.rs", "ser_raw/src/serializers/ptr_offset.rs", "ser_raw/src/serializers/pure_copy.rs", "ser_raw/src/serializer_traits/pos_tracking.rs"]}
{"id": "C84", "title": "Crash points and later uses of the storage, with any programs as serialize_data", "statement": "With any user programs as serialize_data (deciding by what they see, pushing temporaries, panicking), interleaved with everything else a serializer can be used for: while the serializer goes on, no byte below the position it had changes except through a random-access write to it, so output can be streamed out as it grows; finalize changes no byte, or, for a CompleteSerializer, none outside what values' calls appended and, within the blocks of a value with crate or derived implementations, none outside its pointers. If the process stops at any moment and the first n bytes are in a file, with anything behind them, every value whose call ended at or before n can be read from it, and programs' outputs are there as the reference outputs of the calls made. If bytes are lost but none is altered, whatever is still found at the position of a value is that value. After finalize, whatever storage operations other than clear and whatever further serializers with whatever programs follow, finished or dropped: values and programs' outputs that no random-access write touched stay as they were, readable at their positions (for a CompleteSerializer while the buffer does not move; after a move, once the pointers of the value are adjusted in place); each can be copied elsewhere by itself.", "quantifier": "all programs, all histories, all moments in them, all later histories, all four serializers", "why_tests_cant": "Ranges over arbitrary user code, all histories, crash points and later histories.", "anchors": ["ser_raw/src/serialize.rs:Serialize", "ser_raw/src/serializer.rs:serialize_value,finalize", "ser_raw/src/serializers/complete.rs:do_serialize_value,finalize", "ser_raw/src/storage/mod.rs:Storage", "ser_raw/src/storage/aligned_vec.rs:AlignedVec"]}
{"id": "C85", "title": "Implementations that look, decide, panic and catch panics, in any combination", "statement": "serialize_data may do all of it: look at the serializer, decide by what it sees and by returned positions, push temporaries, panic, and run any part of itself, at any depth of closures, under catch_unwind, going on in another way after a panic of its own or of a full storage, provided that the slices it tries to push are real, the calls it amounts to follow the rules, and, with a tracking serializer, it puts the position mapping back after a caught panic in what processes something. Such calls can come anywhere in the histories of C83 and C84, and all that is claimed there still holds. The call does what it would do on the same value with a plain sequence of calls: those completed, in order, where a push that did not fit only aligns the end; a call that gives a position leaves the reference output of these in the final buffer, in any crash prefix that has it, and later. If everything is attempted, the call returns the position of the value whenever there is room for the value itself. If the implementation looks at positions only, which calls these are, what fits, which panics are caught, which ways it goes, where the output ends, and what the call returns are computed from the end before the call and the maximum capacity alone: same for every serializer, history, allocator and build.", "quantifier": "all such implementations, all histories with them, all four serializers, all storage types, all moments", "why_tests_cant": "Ranges over arbitrary user code with arbitrary control flow, over all points at which it or the storage can panic, and over all histories before and after.", "anchors": ["ser_raw/src/serialize.rs:Serialize", "ser_raw/src/serializer.rs:serialize_value,push_and_process_slice,push_slice,push_raw_slice", "ser_raw/src/serializer_traits/pos_tracking.rs:PosTracking", "ser_raw/src/storage/aligned_vec.rs:AlignedVec"]}
{"id": "C86", "title": "What derive(Serialize) accepts, and for which types and serializers the generated impl is", "statement": "The derive macro accepts a declaration exactly if it is a struct or enum (not a union) whose fields C41 or C42 accepts, with at most one ser_bound attribute, which parses. The generated impl gives Serialize<S> for ident<args> exactly if ident<args> is a type by the declaration (parameters in the order declared, bounds and where clause satisfied) and S is a type that implements Serializer and satisfies the ser_bound, if any: no other requirement is added and none is dropped, and serialize_data takes that S. The generated parameters are ones rustc accepts (distinct names, lifetimes first, no defaults, every name used is declared), unless a parameter of the declaration is itself called __S, in which case names collide. The body is the one of C41 and C42.", "quantifier": "all declarations with any generic parameters, bounds, where clauses and attributes; all types, values of const parameters, lifetimes and serializers they may be instantiated with", "why_tests_cant": "Ranges over all declarations and all instantiations; tests cover a few declarations.", "anchors": ["ser_raw_derive/src/lib.rs:serialize_impl,get_generics,get_ser_bound", "ser_raw_derive/src/structs.rs:derive_struct", "ser_raw_derive/src/enums.rs:derive_enum"]}
{"id": "C87", "title": "Which traits derive(Serializer) implements, for which types", "statement": "For a struct tagged ser_type(kind) which the derive macro accepts, and whose name, parameters, bounds and where clause do not use the handful of names the generated code imports, ident<args> gets a trait exactly if ident<args> is a type by the declaration and the trait is one of the kind: Serializer for pure_copy; also PosTracking for pos_tracking; also PtrWriting and PtrOffset for ptr_offset; PosTracking, PtrWriting, Writable and Complete for complete. No requirement is added and none is dropped; no trait is implemented twice, the supertraits of each are implemented for the same types, the parameter lists are ones rustc accepts, and the bodies are the ones of C43. A struct whose own name is one of the imported ones (e.g. a ptr_offset serializer called PosMapping) cannot get all of the traits.", "quantifier": "all declarations with any generic parameters, bounds, where clauses and attributes; all types, values of const parameters and lifetimes they may be instantiated with; every kind", "why_tests_cant": "Ranges over all declarations and all instantiations; tests cover the declarations of the crate.", "anchors": ["ser_raw_derive_serializer/src/lib.rs:serializer_impl", "ser_raw_derive_serializer/src/ser_types/pos_tracking.rs:impl_pos_tracking", "ser_raw_derive_serializer/src/ser_types/ptr_offset.rs:get_impls", "ser_raw_derive_serializer/src/ser_types/complete.rs:get_impls"]}
{"id": "C88", "title": "Storages and serializers that share a heap, with any programs as serialize_data", "statement": "What C78 says holds also where values have any program as serialize_data: one that decides its calls by what it is told, looks at the serializer (its position, memory and addresses, and so at what the allocator answered and at the heap), pushes temporaries, panics at any depth of closures, and catches such panics and goes on (by C85's rules). Whatever the others do, no permitted call is undefined behaviour, each ends, drop and finalize return; a call changes no block that is not its own, no other variable and leaks nothing; two storages never own the same block; a storage's bytes stay as they are while only others are active; and after finalize the bytes written for a value with such an implementation are the reference output of the calls it made (for one that catches panics: the plain calls left when aborted ones are cut), and values with the crate's own and derived implementations are readable in a CompleteSerializer's final buffer.", "quantifier": "all programs with any number of storages and serializers (all const parameters, all kinds), all interleavings (unbounded), all allocators that return memory free of live blocks, all implementations written as a Program, or as a Catching program by C85's rules, all values", "why_tests_cant": "The interleavings, allocators and implementations are unbounded; what an implementation does may depend on addresses that differ from run to run.", "anchors": ["ser_raw/src/storage/aligned_vec.rs:AlignedVec::alloc", "ser_raw/src/storage/aligned_vec.rs:AlignedVec::realloc", "ser_raw/src/serializer.rs:Serializer::serialize_value", "ser_raw/src/serialize.rs:Serialize::serialize_data"]}
{"id": "C89", "title": "Which AlignedVec types can be used", "statement": "A storage AlignedVec<S, M, V, X> can be made (its constructors compile) exactly if the parameters follow the rules documented for Storage: S, M, V are powers of two with V <= M <= S, and X is a nonzero multiple of M that is at most isize::MAX + 1 - S. With parameters left out: AlignedVec works on every target, with alignment 16, values aligned to the size of a pointer and at most isize::MAX - 15 bytes; with MAX_CAPACITY left out exactly storage alignments up to 16 work; with only the storage alignment given exactly AlignedVec<8>, AlignedVec<16> and, on 32-bit targets, AlignedVec<4> do. aligned_max_capacity(S) is the greatest maximum capacity with which storage alignment S works.", "quantifier": "all targets, all values of the const parameters given, any number of parameters left out", "why_tests_cant": "A type is accepted or rejected when it is compiled; each test is one choice of constants, and rejected ones cannot be in a test at all.", "anchors": ["ser_raw/src/storage/aligned_vec.rs:AlignedVec", "ser_raw/src/storage/mod.rs:Storage::ASSERT_ALIGNMENTS_VALID", "ser_raw/src/util.rs:aligned_max_capacity"]}
{"id": "C90", "title": "What a storage holds stays, whatever else happens on the heap", "statement": "A program has any number of storages and serializers on one heap, among allocations of its own; values may have any implementations, also ones that decide by what they are told, panic or catch panics. Take one storage at any moment, and a later moment, with anything in between: others grow, move, free and reuse memory; the storage itself is pushed to, grows and moves, is given to further serializers that finish, are dropped or panic. As long as it is neither dropped nor cleared, every byte it held is still at its position, except where a random-access write was made (or where a CompleteSerializer that was at work at the first moment fixes pointers of its own values when it finishes). So every value of a finished serializer stays readable: at its position (PtrOffsetSerializer), in order (PureCopySerializer, position tracking), in the buffer while that has not moved (CompleteSerializer), and after a move once its pointer words are rewritten; the output of any program or hand-written implementation stays the reference output of its calls; bytes pushed directly stay where they were put; and a copy of one value's bytes at another address, with its pointer words filled in, is the value. At any moment the first n bytes of an unfinished PtrOffsetSerializer or PureCopySerializer output hold every value whose call had ended by n (and the output of every program), and from an output with bytes missing no value is read back as a different one.", "quantifier": "all programs with any number of storages and serializers of any types on one heap, all allocator answers std::alloc allows, all pairs of an earlier and a later moment, all kinds of serializer, all values and all implementations, all panics caught", "why_tests_cant": "The interleavings of several objects' calls on one heap, the allocator's choices (including reuse of a block another storage has just left) and the length of what happens in between are unbounded.", "anchors": ["ser_raw/src/storage/aligned_vec.rs: AlignedVec, grow_for_reserve, drop", "ser_raw/src/storage/mod.rs: Storage, RandomAccessStorage", "ser_raw/src/serializer.rs: Serializer::serialize_value, finalize, storage_mut", "ser_raw/src/serializers/complete.rs: CompleteSerializer"]}
