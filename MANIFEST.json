{"claims": [
{"property": "C01", "status": "proved", "theorems": ["SerRaw.C01_align_up_to"], "note": "Stated, with concrete cases, in Props/Util.lean. Modelled by: bitwise expressions on `Nat`. Proof: bit lemmas, all widths."},
{"property": "C02", "status": "proved", "theorems": ["SerRaw.C02_is_aligned_to"], "note": "Stated, with concrete cases, in Props/Util.lean. Modelled by: bitwise expressions on `Nat`. Proof: bit lemmas, all widths."},
{"property": "C03", "status": "proved", "theorems": ["SerRaw.C03_aligned_max_capacity", "SerRaw.C03_illegal"], "note": "Stated, with concrete cases, in Props/Util.lean. Modelled by: capacity functions incl. assertions. Proof: arithmetic; C04: counterexamples for the doc claims that fail."},
{"property": "C04", "status": "proved", "theorems": ["SerRaw.C04_u32_capacity", "SerRaw.C04_u32_illegal", "SerRaw.C04_positions_u32", "SerRaw.C04_empty_slice_at_end", "SerRaw.C04_doc_argument"], "note": "Stated, with concrete cases, in Props/Storage2.lean. Modelled by: capacity functions incl. assertions. Proof: arithmetic; C04: counterexamples for the doc claims that fail."},
{"property": "C05", "status": "proved", "theorems": ["SerRaw.C05_consistent", "SerRaw.C05_no_ub", "SerRaw.C05_empty_slice_ub"], "note": "Stated, with concrete cases, in Props/Storage.lean. Modelled by: op sequences over storage. Proof: invariant by induction on ops, panics continue."},
{"property": "C06", "status": "proved", "theorems": ["SerRaw.C06_base_aligned", "SerRaw.C06_position_is_address"], "note": "Stated, with concrete cases, in Props/Storage.lean. Modelled by: storage ops. Proof: exact equations + history induction."},
{"property": "C07", "status": "proved", "theorems": ["SerRaw.C07_position"], "note": "Stated, with concrete cases, in Props/Storage.lean. Modelled by: storage ops. Proof: exact equations + history induction."},
{"property": "C08", "status": "proved", "theorems": ["SerRaw.C08_contents"], "note": "Stated, with concrete cases, in Props/Storage.lean. Modelled by: storage ops. Proof: exact equations + history induction."},
{"property": "C09", "status": "proved", "theorems": ["SerRaw.C09_reserve"], "note": "Stated, with concrete cases, in Props/Storage.lean. Modelled by: storage ops. Proof: exact equations + history induction."},
{"property": "C10", "status": "proved", "theorems": ["SerRaw.C10_push"], "note": "Stated, with concrete cases, in Props/Storage.lean. Modelled by: storage ops. Proof: exact equations + history induction."},
{"property": "C11", "status": "proved", "theorems": ["SerRaw.C11_with_capacity", "SerRaw.C11_no_realloc"], "note": "Stated, with concrete cases, in Props/Storage2.lean. Modelled by: storage ops. Proof: exact equations + history induction."},
{"property": "C12", "status": "proved", "theorems": ["SerRaw.C12_growth_shape", "SerRaw.C12_log_growths", "SerRaw.C12_reserve_exact", "SerRaw.C12_push_exact"], "note": "Stated, with concrete cases, in Props/Storage2.lean, Props/Cost.lean. Modelled by: growth counter over histories. Proof: potential argument (capacity doubles)."},
{"property": "C13", "status": "proved", "theorems": ["SerRaw.C13_shrink"], "note": "Stated, with concrete cases, in Props/Storage2.lean. Modelled by: storage ops. Proof: exact equations + history induction."},
{"property": "C14", "status": "proved", "theorems": ["SerRaw.C14_clear"], "note": "Stated, with concrete cases, in Props/Storage2.lean. Modelled by: storage ops. Proof: exact equations + history induction."},
{"property": "C15", "status": "proved", "theorems": ["SerRaw.C15_owned", "SerRaw.C15_drop", "SerRaw.C15_with_capacity_panic", "SerRaw.alloc_ub_iff", "SerRaw.realloc_ub_iff", "SerRaw.dealloc_ub_iff"], "note": "Stated, with concrete cases, in Props/Storage2.lean, Props/Heap.lean. Modelled by: live-block list of the allocator. Proof: invariant by induction incl. drop."},
{"property": "C16", "status": "proved", "theorems": ["SerRaw.C16_zst"], "note": "Stated, with concrete cases, in Props/Storage2.lean. Modelled by: storage ops. Proof: exact equations + history induction."},
{"property": "C17", "status": "proved", "theorems": ["SerRaw.C17_push_empty", "SerRaw.C17_debug_otherwise", "SerRaw.C17_release_otherwise", "SerRaw.C17_unaligned_panics", "SerRaw.C17_size_wraps"], "note": "Stated, with concrete cases, in Props/Storage2.lean. Modelled by: push_empty. Proof: release-mode partial + negation witnesses."},
{"property": "C18", "status": "proved", "theorems": ["SerRaw.C18_disjoint"], "note": "Stated, with concrete cases, in Props/Storage.lean. Modelled by: storage ops. Proof: exact equations + history induction."},
{"property": "C19", "status": "proved", "theorems": ["SerRaw.C19_write", "SerRaw.C19_read", "SerRaw.C19_write_read", "SerRaw.C19_overaligned_ub"], "note": "Stated, with concrete cases, in Props/Storage2.lean. Modelled by: storage ops. Proof: exact equations + history induction."},
{"property": "C20", "status": "proved", "theorems": ["SerRaw.C20_pos_for_addr", "SerRaw.C20_position_of_copy", "SerRaw.C20_position_of_copy_reachable"], "note": "Stated, with concrete cases, in Props/Pos.lean, Props/Nested.lean. Modelled by: pos mapping, pointer groups. Proof: invariants over arbitrary write/move histories."},
{"property": "C21", "status": "proved", "theorems": ["SerRaw.C21_process_restores", "SerRaw.C21_script", "SerRaw.C21_serialize_data", "SerRaw.C21_serialize_value_leaves_mapping"], "note": "Stated, with concrete cases, in Props/Pos.lean, Props/PosEx.lean. Modelled by: pos mapping, pointer groups. Proof: invariants over arbitrary write/move histories."},
{"property": "C22", "status": "proved", "theorems": ["SerRaw.C22_finalize_repairs", "SerRaw.C22_written_twice"], "note": "Stated, with concrete cases, in Props/Pos.lean, Props/PosEx.lean. Modelled by: pos mapping, pointer groups. Proof: invariants over arbitrary write/move histories."},
{"property": "C23", "status": "proved", "theorems": ["SerRaw.C23_finalize_frame", "SerRaw.C23_other_kinds"], "note": "Stated, with concrete cases, in Props/Pos.lean. Modelled by: pos mapping, pointer groups. Proof: invariants over arbitrary write/move histories."},
{"property": "C24", "status": "proved", "theorems": ["SerRaw.C24_complete_roundtrip"], "note": "Stated, with concrete cases, in Props/Serialize.lean. Modelled by: serializer on typed memory. Proof: refinement + decode theorem."},
{"property": "C25", "status": "proved", "theorems": ["SerRaw.C25_self_contained"], "note": "Stated, with concrete cases, in Props/Serialize.lean. Modelled by: serializer on typed memory. Proof: refinement + decode theorem."},
{"property": "C26", "status": "proved", "theorems": ["SerRaw.C26_shrunk", "SerRaw.C26_header"], "note": "Stated, with concrete cases, in Props/Serialize.lean. Modelled by: serializer on typed memory. Proof: refinement + decode theorem."},
{"property": "C27", "status": "proved", "theorems": ["SerRaw.C27_offset_roundtrip"], "note": "Stated, with concrete cases, in Props/Serialize.lean. Modelled by: serializer on typed memory. Proof: refinement + decode theorem."},
{"property": "C28", "status": "proved", "theorems": ["SerRaw.C28_offsets", "SerRaw.C28_zst_push_writes_null"], "note": "Stated, with concrete cases, in Props/Serialize.lean, Props/PosEx.lean. Modelled by: serializer on typed memory. Proof: refinement + decode theorem."},
{"property": "C29", "status": "proved", "theorems": ["SerRaw.C29_in_order"], "note": "Stated, with concrete cases, in Props/Serialize.lean. Modelled by: in-order reader. Proof: induction on fuel."},
{"property": "C30", "status": "proved", "theorems": ["SerRaw.C30_verbatim"], "note": "Stated, with concrete cases, in Props/Serialize.lean. Modelled by: serializer on typed memory. Proof: refinement + decode theorem."},
{"property": "C31", "status": "proved", "theorems": ["SerRaw.C31_same_layout", "SerRaw.C31_same_bytes", "SerRaw.C31_complete"], "note": "Alignment gaps, which are never written, are excluded. Agreement of debug and release builds is C33_builds_agree. Stated, with concrete cases, in Props/Agree.lean. Modelled by: serializer on typed memory. Proof: refinement + decode theorem."},
{"property": "C32", "status": "proved", "theorems": ["SerRaw.C32_fits_iff"], "note": "Stated, with concrete cases, in Props/Serialize.lean. Modelled by: serializer on typed memory. Proof: refinement + decode theorem."},
{"property": "C33", "status": "proved", "theorems": ["SerRaw.C33_safe", "SerRaw.C33_builds_agree", "SerRaw.C33_storage_builds", "SerRaw.write_ub_iff", "SerRaw.ref_ub_iff", "SerRaw.ptrAdd_ub_iff"], "note": "Stated, with concrete cases, in Props/Serialize.lean, Props/Build.lean, Props/Heap.lean. Modelled by: serializer on typed memory. Proof: refinement + decode theorem."},
{"property": "C34", "status": "proved", "theorems": ["SerRaw.C34_complete", "SerRaw.C27_offset_roundtrip", "SerRaw.C29_in_order"], "note": "Stated, with concrete cases, in Props/Serialize.lean. Modelled by: serializer on typed memory. Proof: refinement + decode theorem."},
{"property": "C35", "status": "proved", "theorems": ["SerRaw.C35_appends"], "note": "Stated, with concrete cases, in Props/Serialize.lean. Modelled by: serializer on typed memory. Proof: refinement + decode theorem."},
{"property": "C36", "status": "proved", "theorems": ["SerRaw.C36_position_readable", "SerRaw.C36_zst", "SerRaw.C36_zst_unallocated_ub"], "note": "Stated, with concrete cases, in Props/Serialize.lean, Props/SerEx.lean. Modelled by: serializer on typed memory. Proof: refinement + decode theorem."},
{"property": "C37", "status": "proved", "theorems": ["SerRaw.C37_variant"], "note": "Stated, with concrete cases, in Props/Serialize.lean. Modelled by: serializer on typed memory. Proof: refinement + decode theorem."},
{"property": "C38", "status": "proved", "theorems": ["SerRaw.C38_offsets", "SerRaw.C38_index_sound", "SerRaw.C38_distinct"], "note": "Stated, with concrete cases, in Props/Layouts.lean. Modelled by: const-evaluated offset code on 3-word layouts. Proof: case analysis over all layouts, all alignments."},
{"property": "C39", "status": "proved", "theorems": ["SerRaw.C39_empty_vec", "SerRaw.C39_empty_vec_reachable", "SerRaw.C39_others"], "note": "Stated, with concrete cases, in Props/Layouts.lean, Props/Nested.lean. Modelled by: const-evaluated offset code on 3-word layouts. Proof: case analysis over all layouts, all alignments."},
{"property": "C40", "status": "proved", "theorems": ["SerRaw.C40_data_offset"], "note": "Stated, with concrete cases, in Props/Layouts.lean. Modelled by: const-evaluated offset code on 3-word layouts. Proof: case analysis over all layouts, all alignments."},
{"property": "C41", "status": "proved", "theorems": ["SerRaw.C41_visits", "SerRaw.C41_accepts", "SerRaw.C41_plain", "SerRaw.C41_ser_bound", "SerRaw.C41_unparsable_ignored"], "note": "Stated, with concrete cases, in Props/Derive.lean. Modelled by: macros as functions on declaration syntax. Proof: induction on fields/attributes."},
{"property": "C42", "status": "proved", "theorems": ["SerRaw.C42_visits", "SerRaw.C42_accepts", "SerRaw.C42_model", "SerRaw.C42_ser_with_ignored"], "note": "Stated, with concrete cases, in Props/Derive.lean. Modelled by: macros as functions on declaration syntax. Proof: induction on fields/attributes."},
{"property": "C43", "status": "proved", "theorems": ["SerRaw.C43_accepts", "SerRaw.C43_behaviour", "SerRaw.C43_fields"], "note": "Stated, with concrete cases, in Props/DeriveSerializer.lean. Modelled by: macros as functions on declaration syntax. Proof: induction on fields/attributes."},
{"property": "C44", "status": "proved", "theorems": ["SerRaw.C44_no_pointers", "SerRaw.C44_debug_calls", "SerRaw.C44_debug_finalize_ub", "SerRaw.C44_ptrs_mut_ub", "SerRaw.C44_clear_shrink_finalize_ub", "SerRaw.C44_clear_reuse_corrupts", "SerRaw.C44_unrelated_addr_ub", "SerRaw.C44_unrelated_addr_ub_ptr_offset", "SerRaw.C44_unrelated_addr_debug"], "note": "The unrestricted claim is false of the code; the positive theorems state where it holds, the others are concrete safe programs reaching undefined behaviour. Stated, with concrete cases, in Props/SafeCalls.lean, Props/PosEx.lean. Modelled by: safe-call scripts. Proof: false of the code: negation witnesses; positive theorems: no pointers ⇒ no UB, in debug builds no UB before `finalize`."},
{"property": "C45", "status": "proved", "theorems": ["SerRaw.C45_user_impls"], "note": "Stated, with concrete cases, in Props/UserImpl.lean. Modelled by: scripts following the documented rules. Proof: refinement (induction on the call tree)."},
{"property": "C46", "status": "proved", "theorems": ["SerRaw.C46_only_edits"], "note": "Stated, with concrete cases, in Props/Edits.lean. Modelled by: typed sessions. Proof: induction on fuel: the edited words are those of `Spec/Edits.lean`, all others verbatim."},
{"property": "C47", "status": "proved", "theorems": ["SerRaw.C47_no_realloc", "SerRaw.C47_presized"], "note": "Stated, with concrete cases, in Props/Caught.lean. Modelled by: typed sessions. Proof: refinement carries \"as long as the output fits, capacity, address and allocator call count are unchanged\"."},
{"property": "C48", "status": "proved", "theorems": ["SerRaw.C48_caught_safe", "SerRaw.C48_caught_complete", "SerRaw.C48_caught_offset", "SerRaw.C48_caught_verbatim", "SerRaw.C48_caught_frame", "SerRaw.C59_none"], "note": "Stated, with concrete cases, in Props/Caught.lean, Props/Mixed.lean. Modelled by: sessions with caught panics. Proof: refinement also describes the state a panic leaves behind; induction over the calls."},
{"property": "C49", "status": "proved", "theorems": ["SerRaw.C49_blocks", "SerRaw.C49_size", "SerRaw.C49_value_only", "SerRaw.C49_presize", "SerRaw.C49_overhead"], "note": "Stated, with concrete cases, in Props/Size.lean. Modelled by: typed sessions; sizes computed from abstract values (`Spec/Size.lean`). Proof: induction on fuel: the owned blocks in memory are those of the abstract value."},
{"property": "C50", "status": "proved", "theorems": ["SerRaw.C50_ptr", "SerRaw.C50_ptr_reads", "SerRaw.C50_stable", "SerRaw.C50_session_stable"], "note": "Stated, with concrete cases, in Props/Ptr.lean. Modelled by: `ptr` on reachable storages. Proof: storage invariant; the step specifications carry \"same capacity ⇒ same address\"."},
{"property": "C51", "status": "proved", "theorems": ["SerRaw.C51_complete", "SerRaw.C51_offset"], "note": "Stated, with concrete cases, in Props/Pointers.lean. Modelled by: typed sessions; pointer words computed from abstract values. Proof: induction on fuel + refinement."},
{"property": "C52", "status": "proved", "theorems": ["SerRaw.C52_valid", "SerRaw.C52_idempotent"], "note": "Stated, with concrete cases, in Props/Reread.lean. Modelled by: two typed sessions, the second on the first one's buffer. Proof: C34 + C49 + C46; a value without spare capacity has only pointer edits (induction on fuel)."},
{"property": "C53", "status": "proved", "theorems": ["SerRaw.C53_cost", "SerRaw.C53_caught_cost"], "note": "Stated, with concrete cases, in Props/Cost.lean. Modelled by: typed sessions. Proof: refinement carries a transitive cost relation (potential `log2 capacity`, capacity < 2·output)."},
{"property": "C54", "status": "proved", "theorems": ["SerRaw.C54_stays", "SerRaw.C54_offset", "SerRaw.C54_in_order", "SerRaw.C54_complete_at", "SerRaw.C54_complete"], "note": "Stated, with concrete cases, in Props/Durable.lean. Modelled by: later histories (`Later`, Model/Later.lean). Proof: induction on the history; readers are monotone in memory; F17."},
{"property": "C55", "status": "proved", "theorems": ["SerRaw.C55_batching", "SerRaw.C55_success"], "note": "Stated, with concrete cases, in Props/Batch.lean. Modelled by: typed sessions. Proof: the reference output of a concatenation is the composition."},
{"property": "C56", "status": "proved", "theorems": ["SerRaw.C56_safe", "SerRaw.C56_as_if_returned", "SerRaw.C56_completed"], "note": "Stated, with concrete cases, in Props/UserPanic.lean. Modelled by: scripts that end in a panic (`Stop`, Model/UserPanic.lean), caught. Proof: simulation by the script that stops there (storage and pointers equal), then refinement; induction over the calls."},
{"property": "C57", "status": "proved", "theorems": ["SerRaw.C57_content", "SerRaw.C57_complete", "SerRaw.C57_reproducible"], "note": "Stated, with concrete cases, in Props/Content.lean. Modelled by: typed sessions; content computed from the abstract value (Spec/Content.lean). Proof: induction over the decoder: whatever decodes to the value, with pointers where C51 puts them, has this content."},
{"property": "C58", "status": "proved", "theorems": ["SerRaw.C58_lossless"], "note": "Stated, with concrete cases, in Props/Lossless.lean. Modelled by: typed sessions. Proof: the outputs can be read back (C27, C29, C34) and readers are functions."},
{"property": "C59", "status": "proved", "theorems": ["SerRaw.C59_safe", "SerRaw.C59_order", "SerRaw.C59_complete", "SerRaw.C59_offset", "SerRaw.C59_in_order", "SerRaw.C59_user", "SerRaw.C59_direct", "SerRaw.C59_before", "SerRaw.C59_write_allowed", "SerRaw.C59_none"], "note": "Stated, with concrete cases, in Props/Mixed.lean. Modelled by: `Sess`: relation over arbitrary event sequences; `GReach`: storages these lead to (Model/Mixed). Proof: invariant: contents represented by the state hold the output of every event; recorded pointers lie in outputs of values."},
{"property": "C60", "status": "proved", "theorems": ["SerRaw.C60_consistent", "SerRaw.C60_no_ub", "SerRaw.C60_push", "SerRaw.C60_push_empty", "SerRaw.C60_reserve", "SerRaw.C60_shrink", "SerRaw.C60_write", "SerRaw.C60_read", "SerRaw.C60_drop", "SerRaw.C60_position_of_copy"], "note": "Stated, with concrete cases, in Props/Reused.lean. Modelled by: `GReach` (Model/Mixed.lean): storages reached by storage operations and mixed serializer uses. Proof: the invariant of C59 is a storage invariant; the theorems of C05–C19 are stated from the invariant and reused (Props/Reused.lean)."},
{"property": "C61", "status": "proved", "theorems": ["SerRaw.C61_consistent", "SerRaw.C61_safe_calls", "SerRaw.C61_push", "SerRaw.C61_push_empty", "SerRaw.C61_panic_keeps", "SerRaw.C61_durable", "SerRaw.C61_disjoint", "SerRaw.C61_with_capacity", "SerRaw.C61_aligned_vec", "SerRaw.C61_aligned_vec_methods", "SerRaw.C61_chunked", "SerRaw.C61_push_empty_breaks_contract", "SerRaw.C61_reserve_must_align"], "note": "Stated, with concrete cases, in Props/CustomStorage.lean. Modelled by: Model/CustomStorage: the trait as a record of required methods, its default methods over it; Spec/CustomStorage: the contract. Proof: each default method against the contract (outcome logic), induction over histories; AlignedVec and a chunked storage shown to satisfy the contract."},
{"property": "C62", "status": "proved", "theorems": ["SerRaw.C62_outcome", "SerRaw.C62_roundtrip", "SerRaw.C62_in_order", "SerRaw.C62_keeps", "SerRaw.C62_same_output", "SerRaw.C62_user", "SerRaw.C62_aligned_vec", "SerRaw.C62_aligned_vec_same", "SerRaw.C62_array"], "note": "Stated, with concrete cases, in Props/CustomSerializer.lean. Modelled by: `RandomImpl σ` (the trait over any state type), `GSer`, `gData`, `gSession`, `KReach` in Model/CustomSerializer.lean; contract in Spec/CustomSerializer.lean. Proof: Refinement: storage contents extend the reference output at every step (induction on the calls made); `C62_aligned_vec_same` proves the generic model equals the `AlignedVec` model for every input and outcome; an array storage as second instance."},
{"property": "C63", "status": "proved", "theorems": ["SerRaw.C63_outcome", "SerRaw.C63_roundtrip", "SerRaw.C63_keeps", "SerRaw.C63_same_output", "SerRaw.C63_user", "SerRaw.C63_aligned_vec", "SerRaw.C63_aligned_vec_same", "SerRaw.C63_moving"], "note": "Stated, with concrete cases, in Props/CustomComplete.lean. Modelled by: `ContigImpl σ` (the trait, and reads/writes through its pointer), `CSer`, `cData`, `cSession`, `CReach` in Model/CustomComplete.lean; contract in Spec/CustomComplete.lean. Proof: Refinement: contents extend the reference output for *every* final address up to the recorded pointers (`CRel`, induction on the calls made); `finalize` settles them; `C63_aligned_vec_same` proves the generic model equals the `AlignedVec` model for every input and outcome; a storage that moves at every `reserve` as second instance."},
{"property": "C64", "status": "proved", "theorems": ["SerRaw.C64_outcome", "SerRaw.C64_roundtrip", "SerRaw.C64_apart", "SerRaw.C64_copies", "SerRaw.C64_keeps", "SerRaw.C64_user", "SerRaw.C64_chunked", "SerRaw.C64_covers"], "note": "Stated, with concrete cases, in Props/Jump.lean. Modelled by: as C62, with `RandomImpl.Lawful` (Spec/Jump.lean): the contract without \"`reserve` stays in place\"; output as a relation (`Script.Laid`) instead of a function. Proof: simulation: every run gives an output in the relation; then induction on decode/script shows every output in the relation can be read; instance: a chunked storage, which actually jumps."},
{"property": "C65", "status": "proved", "theorems": ["SerRaw.C65_safe", "SerRaw.C65_order", "SerRaw.C65_offset", "SerRaw.C65_copies", "SerRaw.C65_user", "SerRaw.C65_direct", "SerRaw.C65_before", "SerRaw.C65_write_allowed", "SerRaw.C65_covers"], "note": "Stated, with concrete cases, in Props/CustomMixed.lean. Modelled by: Model/CustomMixed.lean: `GSess`, one serializer over a custom storage after a list of events with caught panics (C59 over `RandomImpl`). Proof: invariant on sessions: contents that hold what each event left; a panic inside a hand-written implementation leaves what returning there would; readers from C64."},
{"property": "C66", "status": "proved", "theorems": ["SerRaw.C66_safe", "SerRaw.C66_order", "SerRaw.C66_roundtrip", "SerRaw.C66_user", "SerRaw.C66_direct", "SerRaw.C66_before", "SerRaw.C66_write_allowed", "SerRaw.C66_covers"], "note": "Stated, with concrete cases, in Props/CustomMixedComplete.lean. Modelled by: Model/CustomMixedComplete.lean: `CSess`, one serializer of kind complete over a custom contiguous storage after a list of events with caught panics (C59 over `ContigImpl`), `QReach` the storages reached. Proof: invariant on sessions: for every base address a content holding what each event left, recorded pointers inside what calls appended; `finalize` gives the content for the final address."},
{"property": "C67", "status": "proved", "theorems": ["SerRaw.C67_fits_iff", "SerRaw.C67_complete_fits_iff", "SerRaw.C67_user_fits_iff", "SerRaw.C67_complete_user_fits_iff", "SerRaw.C67_aligned_vec", "SerRaw.C67_mixed_fits_iff", "SerRaw.C67_complete_mixed_fits_iff"], "note": "Stated, with concrete cases, in Props/CustomFits.lean, Props/CustomFitsMixed.lean. Modelled by: Model/CustomSerializer.lean, Model/CustomComplete.lean over any `RandomImpl`/`ContigImpl`; `Exact`, `NeverAborts` (Spec/CustomSerializer.lean). Proof: the simulation of C62/C63 strengthened: a panic at any push means the reference output ends beyond MAX_CAPACITY, because ends only grow; for mixed sessions the same at each event, by induction on the session."},
{"property": "C68", "status": "proved", "theorems": ["SerRaw.C68_same_calls", "SerRaw.C68_calls_wf", "SerRaw.C68_own_serializers", "SerRaw.C68_derived_serializers", "SerRaw.C68_derived_complete"], "note": "Stated, with concrete cases, in Props/AnySerializer.lean. Modelled by: `SerializerImpl` (the trait as a record of methods), `aData`, `aSession` (Model/AnySerializer.lean), `CallTree` (Spec/CallTree.lean). Proof: induction on the depth of the value; the three older models of serialize_data are shown to be instances."},
{"property": "C69", "status": "proved", "theorems": ["SerRaw.C69_pure_copy", "SerRaw.C69_user", "SerRaw.C69_aligned_vec"], "note": "Stated, with concrete cases, in Props/AnySerializer.lean. Modelled by: `manualSerializer` (the trait's default methods), `StorageField` (Model/AnySerializer.lean). Proof: simulation with `gSession I .pureCopy` along the calls of C68."},
{"property": "C70", "status": "proved", "theorems": ["SerRaw.C70_outcome", "SerRaw.C70_roundtrip", "SerRaw.C70_no_record", "SerRaw.C70_in_order", "SerRaw.C70_keeps", "SerRaw.C70_fits_iff", "SerRaw.C70_user", "SerRaw.C70_derived"], "note": "Stated, with concrete cases, in Props/Assembled.lean. Modelled by: `Kit`, `KSer`, `kitSerializer` (Model/Assembled.lean), `applyFixes`, `Script.Deferrable` (Spec/Assembled.lean). Proof: refinement of the reference output with corrections left out, plus the log; then corrections commute with everything written later (no pointer slot overlaps); parametricity for more fuel."},
{"property": "C71", "status": "proved", "theorems": ["SerRaw.C71_in_order", "SerRaw.C71_later", "SerRaw.C71_sessions", "SerRaw.C71_derived", "SerRaw.C71_derived_complete", "SerRaw.C71_assembled"], "note": "Stated, with concrete cases, in Props/InOrder.lean. Modelled by: `seqRoots` (Spec/Decode.lean): the in-order reader. Proof: induction over the value: in any mode, the slots' bytes are the input's except pointer words (still non-null) and capacities (still capacities), so lengths and discriminants read the same and the blocks follow one another."},
{"property": "C72", "status": "proved", "theorems": ["SerRaw.C72_pointers", "SerRaw.C72_others", "SerRaw.C72_groups", "SerRaw.C72_logarithmic"], "note": "Stated, with concrete cases, in Props/Books.lean. Modelled by: `Sess` (Model/Mixed.lean), `Ptrs` (Model/Pos.lean). Proof: the recorded positions are distinct aligned words inside the session's output; a transition relation (Lemmas/StepRel.lean) kept by every method: the buffer moves only in an allocator call, a group is closed only after the buffer moved."},
{"property": "C73", "status": "proved", "theorems": ["SerRaw.C73_any_serializer", "SerRaw.C73_only_the_value", "SerRaw.C73_isolated", "SerRaw.C73_derived", "SerRaw.C73_derived_complete", "SerRaw.C73_hand_written"], "note": "Stated, with concrete cases, in Props/Footprint.lean. Modelled by: `aData`, `aSession` (Model/AnySerializer.lean), footprint from `owned` (Spec/Footprint.lean). Proof: equality of programs by induction on the depth of the value: every word read and every slice passed lies in the footprint; rustc's rules (`Prog.WF`) keep fields, tags and headers inside the value."},
{"property": "C74", "status": "proved", "theorems": ["SerRaw.C74_calls", "SerRaw.C74_hand_nested", "SerRaw.delegate_ok", "SerRaw.boxSlice_ok", "SerRaw.myString_ok", "SerRaw.haX_ok", "SerRaw.haRun"], "note": "Stated, with concrete cases, in Props/HandNested.lean, Lemmas/HandKit.lean, Props/HandEx.lean. Modelled by: `HCalls`, `hSerData`, `hSession` (Model/HandNested.lean), the documentation's examples (Model/HandKit.lean); views and rules (Spec/HandNested.lean). Proof: the calls, with those of nested values in place, are a well-formed script (C45's discipline); read back by induction on the depth of the value, each hand-written type supplying its own step."},
{"property": "C75", "status": "proved", "theorems": ["SerRaw.C75_safe", "SerRaw.C75_output", "SerRaw.C75_before", "SerRaw.C75_plain", "SerRaw.exAttempt_ok", "SerRaw.exAttemptRun", "SerRaw.exUnrestored_wf", "SerRaw.C75_unrestored_ub", "SerRaw.C75_unrestored_lost"], "note": "Stated, with concrete cases, in Props/Attempt.lean. Modelled by: `ACalls`, `attemptSession` (Model/Attempt.lean); which plain calls they amount to (`ACalls.trace`) and the reference output (Spec/Attempt.lean). Proof: simulation, by induction on the calls: a push that does not fit leaves the state of a push of no elements, so the calls end, return or panic, in the state the trace's script (C45) ends in, up to the mapping; the mapping condition is shown necessary by two concrete runs (F18)."},
{"property": "C76", "status": "proved", "theorems": ["SerRaw.C76_temporaries", "SerRaw.C76_anywhere", "SerRaw.C76_plain", "SerRaw.exFoo_ok"], "note": "Stated, with concrete cases, in Props/Temporaries.lean. Modelled by: `TCalls`, `TRoot`, `tempSession` (Model/Temporaries.lean), calls that carry the bytes pushed; rules and reference output (Spec/Temporaries.lean). Proof: every slice pushed is given an address range of its own in one memory (`TCalls.virt`); by induction on the calls the run is the same up to the input address in the mapping, and C45 applies to the result."},
{"property": "C77", "status": "proved", "theorems": ["SerRaw.C77_recorded", "SerRaw.C77_adaptive", "SerRaw.C77_planned", "SerRaw.C77_captured", "SerRaw.C77_captured_value", "SerRaw.exCapturing_ok", "SerRaw.exCaller_blind", "SerRaw.exIndex_ok", "SerRaw.exCaller_ok", "SerRaw.exTwo_ok"], "note": "Stated, with concrete cases, in Props/Adaptive.lean. Modelled by: `Adaptive`, `Caller`, `callerSession` (Model/Adaptive.lean), decision trees over the answers; `made`, the calls recorded in a run, and `plan`, computed from positions alone (Spec/Adaptive.lean). Proof: induction on the decision tree: the run is the run of the recorded calls, and for trees that look only at positions of the planned ones (every push returns the next multiple of the alignment, and the mapping `pos_for` reads is that of the value being processed, restored after closures); then C76."},
{"property": "C78", "status": "proved", "theorems": ["SerRaw.C78_alone", "SerRaw.C78_owned", "SerRaw.C78_untouched", "SerRaw.C78_keeps", "SerRaw.C78_op", "SerRaw.C78_act", "SerRaw.C78_safe", "SerRaw.C78_complete", "SerRaw.exShared_reach"], "note": "Stated, with concrete cases, in Props/SharedHeap.lean. Modelled by: `Shared`, `Shared.Step`, `SharedReach` (Model/SharedHeap.lean): the same method models, run on the list of all live blocks; `Owner.Alone`, `SameOutcome` (Spec/SharedHeap.lean). Proof: a relation between runs on a heap with others' blocks and on a heap of one's own, preserved by sequencing and by every method of storage and serializer (the crate's implementations by parametricity, C68; hand-written ones by induction), whose allocator answers are matched by their count; invariant over all programs."},
{"property": "C79", "status": "proved", "theorems": ["SerRaw.C79_filled", "SerRaw.C79_complete", "SerRaw.C79_offset", "SerRaw.C79_apart", "SerRaw.C79_rebase", "SerRaw.C79_load", "SerRaw.C79_repair"], "note": "Stated, with concrete cases, in Props/Relocate.lean. Modelled by: `pointersOf`, `MovedTo`, `FilledAt`, the program `rebase` (Spec/Relocate.lean), all without serializers. Proof: the memory at the new address agrees with the ideal output for that base: outside pointer words two bases give the same bytes (C31), in them jobs_slots; pointer words are pairwise disjoint by induction over the calls; `rebase` by induction over the list."},
{"property": "C80", "status": "proved", "theorems": ["SerRaw.C80_stays", "SerRaw.C80_offset", "SerRaw.C80_in_order", "SerRaw.C80_complete", "SerRaw.C80_user", "SerRaw.C80_direct", "SerRaw.C80_filled", "SerRaw.C80_repair"], "note": "Stated, with concrete cases, in Props/Afterwards.lean. Modelled by: later histories `Afterwards` (Model/Afterwards.lean), with mixed sessions in them; `FilledAt`, `rebase` of Spec/Relocate.lean. Proof: induction on the later history with the invariant of C59 for each session in it (bytes before a session change only by random-access writes, also by the fix-ups of `finalize`); then the readers of C59, C79 on the bytes that are left."},
{"property": "C81", "status": "proved", "theorems": ["SerRaw.C81_stays", "SerRaw.C81_final", "SerRaw.C81_complete", "SerRaw.C81_prefix_offset", "SerRaw.C81_prefix_in_order", "SerRaw.C81_lost_offset", "SerRaw.C81_lost_in_order", "SerRaw.C81_lost_complete"], "note": "Stated, with concrete cases, in Props/Streaming.lean. Modelled by: the rest of a session `Goes` (Model/Streaming.lean); parts of an output `Mem.upTo`, `Mem.PartOf` (Spec/Streaming.lean). Proof: one step of a session leaves the bytes below the position (the raw words of pointers to be fixed up are determined by the contents of C59 and their recorded base), induction over the rest; the readers of C59 on the unfinished storage; monotonicity of the readers in the memory."},
{"property": "C82", "status": "proved", "theorems": ["SerRaw.C82_call", "SerRaw.C82_complete", "SerRaw.C82_offset", "SerRaw.C82_prefix"], "note": "Stated, with concrete cases, in Props/HandMixed.lean. Modelled by: `handCall` (Props/HandMixed.lean) puts a `serialize_value` call with the implementations of C74 into the sessions of C59. Proof: the calls do not depend on the recursion bound; what C59's invariant keeps of the call's output, read by C74's reading-back lemma."},
{"property": "C83", "status": "proved", "theorems": ["SerRaw.C83_calls", "SerRaw.C83_nested", "SerRaw.C83_follows", "SerRaw.C83_includes", "SerRaw.C83_storages", "SerRaw.C83_safe", "SerRaw.C83_order", "SerRaw.C83_program", "SerRaw.C83_none", "SerRaw.C83_complete", "SerRaw.C83_offset", "SerRaw.C83_in_order", "SerRaw.C83_direct", "SerRaw.C83_before"], "note": "Stated, with concrete cases, in Props/Programs.lean. Modelled by: `Program`, `XAct`, `XSess`, `XReach` (Model/Programs.lean); `Program.Follows` (Spec/Programs.lean), a condition on the program alone under which its calls follow the rules. Proof: a program and the one that stops where it panics run alike up to there (induction on the program); the latter does what its recorded calls do (C77), these what calls with slices of their own addresses do (C76), so that a session state is one of C59's invariant, event by event."},
{"property": "C84", "status": "proved", "theorems": ["SerRaw.C84_stays", "SerRaw.C84_final", "SerRaw.C84_complete", "SerRaw.C84_prefix_offset", "SerRaw.C84_prefix_in_order", "SerRaw.C84_prefix_program", "SerRaw.C84_lost_offset", "SerRaw.C84_lost_in_order", "SerRaw.C84_lost_complete", "SerRaw.C84_after", "SerRaw.C84_after_offset", "SerRaw.C84_after_in_order", "SerRaw.C84_after_complete", "SerRaw.C84_after_program", "SerRaw.C84_after_filled", "SerRaw.C84_after_repair"], "note": "Stated, with concrete cases, in Props/ProgramsLater.lean. Modelled by: `XGoes`, `XAfter` (Model/ProgramsLater.lean), on the histories of C83. Proof: one more event with a program is one more event of C59's invariant (the simulation of C83), so the arguments of C80 and C81 apply to it; they are stated for that invariant (`SessInv`, `Ended`, `Lasting`) and used for both."},
{"property": "C85", "status": "proved", "theorems": ["SerRaw.C85_calls", "SerRaw.C85_returns", "SerRaw.C85_plan", "SerRaw.C85_programs", "SerRaw.C85_attempts", "SerRaw.C85_follows", "SerRaw.C85_output", "SerRaw.C85_prefix", "SerRaw.C85_after"], "note": "Stated, with concrete cases, in Props/Catching.lean. Modelled by: `Catching`, its run and the plain calls recorded (Model/Catching.lean), `XAct.catching` in `XSess`; rules and `plan`, an interpretation without any serializer (Spec/Catching.lean). Proof: induction on the implementation: its run from a state does what the recorded calls do from that state, and where it panics the storage and the recorded pointers are those after the calls; only the storage raises the panic of a full storage, so a recorded push either happened or is one of no elements; with C76's simulation, one call is one event of C59's invariant, as in C83."},
{"property": "C86", "status": "proved", "theorems": ["SerRaw.C86_accepts", "SerRaw.C86_body", "SerRaw.C86_instances", "SerRaw.C86_params"], "note": "Stated, with concrete cases, in Props/DeriveHeader.lean. Modelled by: `serializeImpl`, `getGenerics`, `split_for_impl` (Model/DeriveHeader.lean); what an impl says, for any notion of satisfied bounds (`Rustc`, `Rustc.Gives`, Spec/DeriveHeader.lean). Proof: case analysis on the declaration with C41 and C42; lifetimes-first is the identity on parameter lists rustc accepts (induction); an environment for the declaration and a serializer make one for the impl and back."},
{"property": "C87", "status": "proved", "theorems": ["SerRaw.C87_instances", "SerRaw.C87_coherent", "SerRaw.C87_params", "SerRaw.C87_bodies", "SerRaw.C87_names"], "note": "Stated, with concrete cases, in Props/SerializerHeader.lean. Modelled by: `serializerItems`, `headerFor`, `kindHeaders` (Model/SerializerHeader.lean); what an impl says when imports may capture names (`Implements`, Spec/SerializerHeader.lean). Proof: the headers are one function of trait and imports, mapped over the traits of the kind (case analysis); lifetimes-first is the identity on legal parameter lists; F19."},
{"property": "C88", "status": "proved", "theorems": ["SerRaw.C88_includes", "SerRaw.C88_owned", "SerRaw.C88_untouched", "SerRaw.C88_keeps", "SerRaw.C88_safe", "SerRaw.C88_program", "SerRaw.C88_catching", "SerRaw.C88_calls", "SerRaw.C88_plan", "SerRaw.C88_complete"], "note": "Stated, with concrete cases, in Props/SharedPrograms.lean. Modelled by: `SharedP`, `SharedP.Step`, `SharedPReach` (Model/SharedPrograms.lean), over Model/SharedHeap.lean and Model/Programs.lean. Proof: refinement: one call of a program leaves, up to the position mapping, what a call of C78 leaves (C83's simulation, which needs no invariant of the state), and the mapping a call starts with does not matter (all methods respect equality up to the mapping); so every reachable state is, up to mappings and records, one of C78; for programs that catch panics, C85's simulation is over an abstract `Housing` (Lemmas/Catching.lean), instantiated with a storage that owns one block among others (Lemmas/Housed.lean)."},
{"property": "C89", "status": "proved", "theorems": ["SerRaw.C89_documented", "SerRaw.C89_three", "SerRaw.C89_two", "SerRaw.C89_one", "SerRaw.C89_default", "SerRaw.C89_max"], "note": "Stated, with concrete cases, in Props/Params.lean. Modelled by: `alignedVecType`, `alignedVecCompiles` (Model/Params.lean), `DocumentedParams` (Spec/Params.lean). Proof: arithmetic of powers of two: the assertions the documentation does not state (S nonzero, S <= (isize::MAX + 1) / 2, …) follow from those it states."},
{"property": "C90", "status": "proved", "theorems": ["SerRaw.C90_stays", "SerRaw.C90_offset", "SerRaw.C90_in_order", "SerRaw.C90_complete", "SerRaw.C90_repair", "SerRaw.C90_program", "SerRaw.C90_prefix_offset", "SerRaw.C90_prefix_in_order", "SerRaw.C90_user", "SerRaw.C90_filled", "SerRaw.C90_direct", "SerRaw.C90_prefix_program", "SerRaw.C90_lost_offset", "SerRaw.C90_lost_in_order"], "note": "Stated, with concrete cases, in Props/SharedLater.lean. Modelled by: `SharedP.Later` (Model/SharedLater.lean), `SharedP.Step` (C88). Proof: induction over what happens in between: a step of another variable by C88_keeps; one of the storage or serializer itself does, among the blocks of others, what it does alone (C78, Lemmas/Isolated.lean), and alone keeps the bytes (C80, C81); values by the facts of C80 about a finished session (`Lasting`)."}
]}
