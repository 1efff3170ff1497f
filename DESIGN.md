# Formal model of ser_raw in Lean 4 — design

## Layers

```
Verif/Model/Arch.lean             usize arithmetic, build mode, outcomes, memory words
Verif/Model/Util.lean             util.rs
Verif/Model/Storage.lean          storage/mod.rs + storage/aligned_vec.rs, allocator contract
Verif/Model/Pos.lean              pos.rs
Verif/Model/Serializer.lean       serializer.rs, serializer_traits/*, method tables of derive(Serializer)
Verif/Model/Types.lean            Rust types: layouts, field offsets, enum tags/niches, Vec/String field order
Verif/Model/Impls.lean            serialize_impls/*
Verif/Model/Script.lean           any Serialize impl as the tree of serializer calls it makes
Verif/Model/Session.lean          serialize_value on a list of values, then finalize
Verif/Model/Caught.lean           the same with panics caught between the calls
Verif/Model/UserImpl.lean         sessions over hand-written impls (scripts)
Verif/Model/UserPanic.lean        hand-written impls that panic at any point, caught
Verif/Model/Mixed.lean            one serializer used for typed values, hand-written impls and direct pushes
Verif/Model/Later.lean            what can happen to a storage after a finished session
Verif/Model/History.lean          histories of a storage (any API calls, panics caught)
Verif/Model/SerHistory.lean       histories of a CompleteSerializer at the level of pushes and pointer writes
Verif/Model/Reach.lean            storages a program can have (storage calls and sessions interleaved)
Verif/Model/SafeCalls.lean        arbitrary nestings of the *safe* serializer methods, panics caught
Verif/Model/Derive.lean           ser_raw_derive: declaration -> generated code -> what rustc makes of it
Verif/Model/DeriveSerializer.lean ser_raw_derive_serializer: declaration -> generated impls -> what the methods do
Verif/Model/CustomStorage.lean    the traits Storage/RandomAccessStorage as interfaces; other storages than AlignedVec
Verif/Model/CustomSerializer.lean derived serializers over any storage (kinds pure_copy, pos_tracking, ptr_offset)
Verif/Model/CustomComplete.lean   derived serializers of kind complete over any contiguous storage
Verif/Model/CustomMixed*.lean     mixed use and caught panics over any storage
Verif/Model/AnySerializer.lean    the trait Serializer as an interface; Serialize impls generic in it; manual implementations
Verif/Model/Assembled.lean        serializers assembled from ser_traits: offsets or not; corrections ignored, applied or recorded

Verif/Spec/Basic.lean             rounding, powers of two, contents of a storage, allocator promises
Verif/Spec/Decode.lean            what a typed address in a byte memory means (reader of values)
Verif/Spec/Layout.lean            owned allocations of a value, reference placement, in-order reader
Verif/Spec/Output.lean            what a consumer of a finished storage sees
Verif/Spec/Ideal.lean             reference output of a script
Verif/Spec/Discipline.lean        rules for hand-written impls
Verif/Spec/User.lean              reference output of sessions over hand-written impls
Verif/Spec/Edits.lean             which words of a value are edited
Verif/Spec/Size.lean              blocks, positions and pointer words of an abstract value
Verif/Spec/Content.lean           the data bytes of an abstract value
Verif/Spec/Custom*.lean, Jump.lean contracts of custom storages, what their consumers see, outputs with gaps
Verif/Spec/CallTree.lean          trees of calls of serializer methods

Verif/Lemmas/*.lean               helper lemmas, invariants, the refinement proof
Verif/Props/*.lean                the property theorems (named after their ids), with concrete cases (`*Ex.lean`, `example`s)
```

`usize` is a `Nat` with explicit wrap-around modulo `2^bits` (release) or an overflow panic (debug);
the pointer width (4 or 8 bytes), endianness and build mode (`debug_assert!` + overflow checks on/off)
are parameters, so theorems hold for all of them. Every fallible operation returns an outcome:
`ok value state`, `panic reason state` (the state matters: a caught panic leaves it behind),
`abort` (allocation failure → `handle_alloc_error`), or `ub` (a safety contract of a std primitive —
alloc/realloc/dealloc/copy_nonoverlapping/pointer read — is violated).

The global allocator is an adversarial oracle (any function from call number and layout to an optional
address) constrained only by its documented contract: non-null, aligned, block inside the address space.

Rust types are entries of an arbitrary type table (so recursive types are covered); a type has a layout and
a definition (plain data, Box, Vec, String, array, struct/tuple, enum with a tag or niche, BigUint, BigInt).
Field offsets, enum tag placement and the order of Vec's three words are arbitrary subject to rustc's rules.
Input values live in an arbitrary byte memory; `decode` (spec) says which abstract value a typed address
denotes in a memory. The serializers are run on addresses in that memory, just as the Rust code does.

## How the serializer theorems are proved

1. Storage invariant + exact equations for each storage operation under it.
2. A pure *reference serializer* (`ideal`): allocations in depth-first pre-order, positions by rounding up, pointer
   words written as `base + position`. One parameter gives each serializer kind.
3. Refinement: the concrete serializer (buffer that moves, pointer groups, position mapping, debug checks)
   produces the reference result, for every allocator; its outcome is `ok` iff the reference size fits.
4. `decode` of the reference output = `decode` of the input, by induction on fuel with a frame condition.

## Properties

| id | model | proof |
|----|-------|-------|
| C01–C02 | bitwise expressions on `Nat` | bit lemmas, all widths |
| C03–C04 | capacity functions incl. assertions | arithmetic; C04: counterexamples for the doc claims that fail |
| C05 | op sequences over storage | invariant by induction on ops, panics continue |
| C06–C11, C13, C14, C16, C18, C19 | storage ops | exact equations + history induction |
| C12 | growth counter over histories | potential argument (capacity doubles) |
| C15 | live-block list of the allocator | invariant by induction incl. drop |
| C17 | push_empty | release-mode partial + negation witnesses |
| C20–C23 | pos mapping, pointer groups | invariants over arbitrary write/move histories |
| C24–C28, C30–C37 | serializer on typed memory | refinement + decode theorem |
| C29 | in-order reader | induction on fuel |
| C38–C40 | const-evaluated offset code on 3-word layouts | case analysis over all layouts, all alignments |
| C41–C43 | macros as functions on declaration syntax | induction on fields/attributes |
| C44 | safe-call scripts | false of the code: negation witnesses; positive theorems: no pointers ⇒ no UB, in debug builds no UB before `finalize` |
| C45 | scripts following the documented rules | refinement (induction on the call tree) |
| C46 | typed sessions | induction on fuel: the edited words are those of `Spec/Edits.lean`, all others verbatim |
| C47 | typed sessions | refinement carries "as long as the output fits, capacity, address and allocator call count are unchanged" |
| C48 | sessions with caught panics | refinement also describes the state a panic leaves behind; induction over the calls |
| C49 | typed sessions; sizes computed from abstract values (`Spec/Size.lean`) | induction on fuel: the owned blocks in memory are those of the abstract value |
| C50 | `ptr` on reachable storages | storage invariant; the step specifications carry "same capacity ⇒ same address" |
| C51 | typed sessions; pointer words computed from abstract values | induction on fuel + refinement |
| C52 | two typed sessions, the second on the first one's buffer | C34 + C49 + C46; a value without spare capacity has only pointer edits (induction on fuel) |
| C53 | typed sessions | refinement carries a transitive cost relation (potential `log2 capacity`, capacity < 2·output) |
| C54 | later histories (`Later`, Model/Later.lean) | induction on the history; readers are monotone in memory; F17 |
| C55 | typed sessions | the reference output of a concatenation is the composition |
| C56 | scripts that end in a panic (`Stop`, Model/UserPanic.lean), caught | simulation by the script that stops there (storage and pointers equal), then refinement; induction over the calls |
| C57 | typed sessions; content computed from the abstract value (Spec/Content.lean) | induction over the decoder: whatever decodes to the value, with pointers where C51 puts them, has this content |
| C58 | typed sessions | the outputs can be read back (C27, C29, C34) and readers are functions |
| C59 | `Sess`: relation over arbitrary event sequences; `GReach`: storages these lead to (Model/Mixed) | invariant: contents represented by the state hold the output of every event; recorded pointers lie in outputs of values |
| C60 | `GReach` (Model/Mixed.lean): storages reached by storage operations and mixed serializer uses | the invariant of C59 is a storage invariant; the theorems of C05–C19 are stated from the invariant and reused (Props/Reused.lean) |
| C61 | Model/CustomStorage: the trait as a record of required methods, its default methods over it; Spec/CustomStorage: the contract | each default method against the contract (outcome logic), induction over histories; AlignedVec and a chunked storage shown to satisfy the contract |
| C62 | `RandomImpl σ` (the trait over any state type), `GSer`, `gData`, `gSession`, `KReach` in Model/CustomSerializer.lean; contract in Spec/CustomSerializer.lean | Refinement: storage contents extend the reference output at every step (induction on the calls made); `C62_aligned_vec_same` proves the generic model equals the `AlignedVec` model for every input and outcome; an array storage as second instance |
| C63 | `ContigImpl σ` (the trait, and reads/writes through its pointer), `CSer`, `cData`, `cSession`, `CReach` in Model/CustomComplete.lean; contract in Spec/CustomComplete.lean | Refinement: contents extend the reference output for *every* final address up to the recorded pointers (`CRel`, induction on the calls made); `finalize` settles them; `C63_aligned_vec_same` proves the generic model equals the `AlignedVec` model for every input and outcome; a storage that moves at every `reserve` as second instance |
| C64 | as C62, with `RandomImpl.Lawful` (Spec/Jump.lean): the contract without "`reserve` stays in place"; output as a relation (`Script.Laid`) instead of a function | simulation: every run gives an output in the relation; then induction on decode/script shows every output in the relation can be read; instance: a chunked storage, which actually jumps |
| C65 | Model/CustomMixed.lean: `GSess`, one serializer over a custom storage after a list of events with caught panics (C59 over `RandomImpl`) | invariant on sessions: contents that hold what each event left; a panic inside a hand-written implementation leaves what returning there would; readers from C64 |
| C66 | Model/CustomMixedComplete.lean: `CSess`, one serializer of kind complete over a custom contiguous storage after a list of events with caught panics (C59 over `ContigImpl`), `QReach` the storages reached | invariant on sessions: for every base address a content holding what each event left, recorded pointers inside what calls appended; `finalize` gives the content for the final address |
| C67 | Model/CustomSerializer.lean, Model/CustomComplete.lean over any `RandomImpl`/`ContigImpl`; `Exact`, `NeverAborts` (Spec/CustomSerializer.lean) | the simulation of C62/C63 strengthened: a panic at any push means the reference output ends beyond MAX_CAPACITY, because ends only grow; for mixed sessions the same at each event, by induction on the session |
| C68 | `SerializerImpl` (the trait as a record of methods), `aData`, `aSession` (Model/AnySerializer.lean), `CallTree` (Spec/CallTree.lean) | induction on the depth of the value; the three older models of serialize_data are shown to be instances |
| C69 | `manualSerializer` (the trait's default methods), `StorageField` (Model/AnySerializer.lean) | simulation with `gSession I .pureCopy` along the calls of C68 |
| C70 | `Kit`, `KSer`, `kitSerializer` (Model/Assembled.lean), `applyFixes`, `Script.Deferrable` (Spec/Assembled.lean) | refinement of the reference output with corrections left out, plus the log; then corrections commute with everything written later (no pointer slot overlaps); parametricity for more fuel |
| C71 | `seqRoots` (Spec/Decode.lean): the in-order reader | induction over the value: in any mode, the slots' bytes are the input's except pointer words (still non-null) and capacities (still capacities), so lengths and discriminants read the same and the blocks follow one another |
| C72 | `Sess` (Model/Mixed.lean), `Ptrs` (Model/Pos.lean) | the recorded positions are distinct aligned words inside the session's output; a transition relation (Lemmas/StepRel.lean) kept by every method: the buffer moves only in an allocator call, a group is closed only after the buffer moved |
| C73 | `aData`, `aSession` (Model/AnySerializer.lean), footprint from `owned` (Spec/Footprint.lean) | equality of programs by induction on the depth of the value: every word read and every slice passed lies in the footprint; rustc's rules (`Prog.WF`) keep fields, tags and headers inside the value |
| C74 | `HCalls`, `hSerData`, `hSession` (Model/HandNested.lean), the documentation's examples (Model/HandKit.lean); views and rules (Spec/HandNested.lean) | the calls, with those of nested values in place, are a well-formed script (C45's discipline); read back by induction on the depth of the value, each hand-written type supplying its own step |
| C75 | `ACalls`, `attemptSession` (Model/Attempt.lean); which plain calls they amount to (`ACalls.trace`) and the reference output (Spec/Attempt.lean) | simulation, by induction on the calls: a push that does not fit leaves the state of a push of no elements, so the calls end, return or panic, in the state the trace's script (C45) ends in, up to the mapping; the mapping condition is shown necessary by two concrete runs (F18) |
| C76 | `TCalls`, `TRoot`, `tempSession` (Model/Temporaries.lean), calls that carry the bytes pushed; rules and reference output (Spec/Temporaries.lean) | every slice pushed is given an address range of its own in one memory (`TCalls.virt`); by induction on the calls the run is the same up to the input address in the mapping, and C45 applies to the result |
| C77 | `Adaptive`, `Caller`, `callerSession` (Model/Adaptive.lean), decision trees over the answers; `made`, the calls recorded in a run, and `plan`, computed from positions alone (Spec/Adaptive.lean) | induction on the decision tree: the run is the run of the recorded calls, and for trees that look only at positions of the planned ones (every push returns the next multiple of the alignment, and the mapping `pos_for` reads is that of the value being processed, restored after closures); then C76 |
| C78 | `Shared`, `Shared.Step`, `SharedReach` (Model/SharedHeap.lean): the same method models, run on the list of all live blocks; `Owner.Alone`, `SameOutcome` (Spec/SharedHeap.lean) | a relation between runs on a heap with others' blocks and on a heap of one's own, preserved by sequencing and by every method of storage and serializer (the crate's implementations by parametricity, C68; hand-written ones by induction), whose allocator answers are matched by their count; invariant over all programs |
| C79 | `pointersOf`, `MovedTo`, `FilledAt`, the program `rebase` (Spec/Relocate.lean), all without serializers | the memory at the new address agrees with the ideal output for that base: outside pointer words two bases give the same bytes (C31), in them jobs_slots; pointer words are pairwise disjoint by induction over the calls; `rebase` by induction over the list |
| C80 | later histories `Afterwards` (Model/Afterwards.lean), with mixed sessions in them; `FilledAt`, `rebase` of Spec/Relocate.lean | induction on the later history with the invariant of C59 for each session in it (bytes before a session change only by random-access writes, also by the fix-ups of `finalize`); then the readers of C59, C79 on the bytes that are left |
| C81 | the rest of a session `Goes` (Model/Streaming.lean); parts of an output `Mem.upTo`, `Mem.PartOf` (Spec/Streaming.lean) | one step of a session leaves the bytes below the position (the raw words of pointers to be fixed up are determined by the contents of C59 and their recorded base), induction over the rest; the readers of C59 on the unfinished storage; monotonicity of the readers in the memory |
| C82 | `handCall` (Props/HandMixed.lean) puts a `serialize_value` call with the implementations of C74 into the sessions of C59 | the calls do not depend on the recursion bound; what C59's invariant keeps of the call's output, read by C74's reading-back lemma |
| C83 | `Program`, `XAct`, `XSess`, `XReach` (Model/Programs.lean); `Program.Follows` (Spec/Programs.lean), a condition on the program alone under which its calls follow the rules | a program and the one that stops where it panics run alike up to there (induction on the program); the latter does what its recorded calls do (C77), these what calls with slices of their own addresses do (C76), so that a session state is one of C59's invariant, event by event |
| C84 | `XGoes`, `XAfter` (Model/ProgramsLater.lean), on the histories of C83 | one more event with a program is one more event of C59's invariant (the simulation of C83), so the arguments of C80 and C81 apply to it; they are stated for that invariant (`SessInv`, `Ended`, `Lasting`) and used for both |
| C85 | `Catching`, its run and the plain calls recorded (Model/Catching.lean), `XAct.catching` in `XSess`; rules and `plan`, an interpretation without any serializer (Spec/Catching.lean) | induction on the implementation: its run from a state does what the recorded calls do from that state, and where it panics the storage and the recorded pointers are those after the calls; only the storage raises the panic of a full storage, so a recorded push either happened or is one of no elements; with C76's simulation, one call is one event of C59's invariant, as in C83 |
| C86 | `serializeImpl`, `getGenerics`, `split_for_impl` (Model/DeriveHeader.lean); what an impl says, for any notion of satisfied bounds (`Rustc`, `Rustc.Gives`, Spec/DeriveHeader.lean) | case analysis on the declaration with C41 and C42; lifetimes-first is the identity on parameter lists rustc accepts (induction); an environment for the declaration and a serializer make one for the impl and back |
| C87 | `serializerItems`, `headerFor`, `kindHeaders` (Model/SerializerHeader.lean); what an impl says when imports may capture names (`Implements`, Spec/SerializerHeader.lean) | the headers are one function of trait and imports, mapped over the traits of the kind (case analysis); lifetimes-first is the identity on legal parameter lists; F19 |
| C88 | `SharedP`, `SharedP.Step`, `SharedPReach` (Model/SharedPrograms.lean), over Model/SharedHeap.lean and Model/Programs.lean | refinement: one call of a program leaves, up to the position mapping, what a call of C78 leaves (C83's simulation, which needs no invariant of the state), and the mapping a call starts with does not matter (all methods respect equality up to the mapping); so every reachable state is, up to mappings and records, one of C78; for programs that catch panics, C85's simulation is over an abstract `Housing` (Lemmas/Catching.lean), instantiated with a storage that owns one block among others (Lemmas/Housed.lean) |
| C89 | `alignedVecType`, `alignedVecCompiles` (Model/Params.lean), `DocumentedParams` (Spec/Params.lean) | arithmetic of powers of two: the assertions the documentation does not state (S nonzero, S <= (isize::MAX + 1) / 2, …) follow from those it states |
| C90 | `SharedP.Later` (Model/SharedLater.lean), `SharedP.Step` (C88) | induction over what happens in between: a step of another variable by C88_keeps; one of the storage or serializer itself does, among the blocks of others, what it does alone (C78, Lemmas/Isolated.lean), and alone keeps the bytes (C80, C81); values by the facts of C80 about a finished session (`Lasting`) |

## Fuel

`serData`, `decode`, `owned` recurse along pointers of the input; Lean needs a bound, `fuel`. Outcome `fuel` ("bound hit") is neither
success nor failure. The bound is shown not to matter: a run that did not hit it is the run for every larger bound
(Lemmas/Fuel.lean), and for a valid (finite) value some bound is enough (C33, C48: `∃ N, ∀ fuel ≥ N, … ≠ fuel`). The theorems about
results quantify over every fuel.

## Findings

Claims of documentation or of the natural reading of the API that are false of the code, each proved as a theorem about a
concrete, reachable situation:

* F1 `push_empty`/`push_empty_slice` panic in debug builds when the size is not a multiple of VALUE_ALIGNMENT (`C17_unaligned_panics`).
* F2 `push_empty_slice` computes its size with wrapping multiplication in release builds (`C17_size_wraps`).
* F3 a zero-sized value of alignment > 1 serialized into a never-allocated storage: position 0, but `read::<T>(0)` is misaligned (`C36_zst_unallocated_ub`).
* F4 `storage_mut().clear()` (+ reuse or shrink) between serializing and `finalize`, all safe calls: memory corruption or UB (`C44_clear_shrink_finalize_ub`, `C44_clear_reuse_corrupts`).
* F5 `push` with an `Addr` unrelated to the current value, safe: out-of-bounds write (`C44_unrelated_addr_ub`, `C44_unrelated_addr_ub_ptr_offset`).
* F6 an empty slice pushed to a full storage returns a position equal to MAX_CAPACITY (`C04_empty_slice_at_end`).
* F7 the documentation of `aligned_max_capacity`/`aligned_max_u32_capacity` says to pass MAX_VALUE_ALIGNMENT; STORAGE_ALIGNMENT is needed (`C04_doc_argument`).
* F8 `#[ser_with]` on enum fields is ignored by the derive macro; raw-identifier fields of enum struct variants make it panic (`C42_ser_with_ignored`, `C42_accepts`).
* F9 `serialize_value` does not restore the position mapping of an enclosing value (`C21_serialize_value_leaves_mapping`).
* F10 a pointer slot written twice is relocated twice (`C22_written_twice`).
* F12 `push_slice::<T>(&[])` on a never-allocated storage with align > 1 copies 0 bytes to a misaligned pointer (`C05_empty_slice_ub`).
* F13 pushing a zero-sized value to a PtrOffsetSerializer writes a null pointer word (`C28_zst_push_writes_null`).
* F14 the safety sections of `write`/`read` omit `align_of::<T>() <= STORAGE_ALIGNMENT` (`C19_overaligned_ub`).
* F15 `#[ser_with(Proxy<T>)]` (not parsable as a meta item) is silently ignored on struct fields (`C41_unparsable_ignored`).
* F16 `ptrs_mut()` is a safe public trait method: pushing an entry makes `finalize` write anywhere (`C44_ptrs_mut_ub`); in debug builds too, an address past the end of the value + `shrink_to_fit` + `finalize` is UB (`C44_debug_finalize_ub`).
* F17 A finished `CompleteSerializer` output goes stale when its storage is used further and moves: `C54_moved_stale` (a safe `reserve`; likewise a second session via `from_storage`, which does not relocate earlier values). `C79_repair` and `C80_repair` give the remedy: adjust the pointer words in place.
* F18 A panic that leaves a `push_and_process*` closure leaves the position mapping of the closure behind; an implementation that catches it inside `serialize_data` and goes on writes pointers to wrong places (`C75_unrestored_ub`, `C75_unrestored_lost`), and a generic one cannot restore it.
* F19 `derive(Serializer)` is not hygienic: the generated block imports `_ser_raw`, `Serializer`, `ser_traits` and, by kind, `PosTracking`, `PosMapping`, `PtrWriting`, `PtrOffset`, `Ptrs`, `Writable`, `Complete`; a struct (or a type in its bounds) with one of these names is captured and the code does not compile (`C87_names`).
* F20 the default of `MAX_CAPACITY` is computed for storage alignment 16 whatever `STORAGE_ALIGNMENT` is: `AlignedVec<32>` (and every other storage alignment above 16 with `MAX_CAPACITY` left out) does not compile, and with only the storage alignment given just 8, 16 (and 4 on 32-bit targets) work (`C89_one`, `C89_three`).

## Trusted base

* Lean 4.33.0's kernel. Every theorem in MANIFEST.json depends only on the axioms `propext`, `Classical.choice` and `Quot.sound`
  (`#print axioms`); no axiom is added, no compiled evaluation is trusted (`decide +kernel` is evaluated by the kernel).
* Mathlib: a few list lemmas (checked by the same kernel).
* That the model means what the Rust code does. The model is written by hand from /repo; each definition cites the lines it models.
  As a check (not a proof), `Props/Conform.lean` runs the model on the inputs of the crate's own test suite (ser_raw/tests; all but the
  generated Minecraft data) and doc examples, with all four serializer kinds: it gives the sizes, positions, words and values those tests assert.

### Modelled

* util.rs; storage/mod.rs and storage/aligned_vec.rs entirely (every method incl. `Drop`; `alloc`/`realloc`/`dealloc` as calls to an
  arbitrary allocator); pos.rs; serializer.rs; serializer_traits/*; serializers/* (`new` = storage `new` + `from_storage`, etc.);
  serialize_impls/*: primitives, `Box`, `Vec`, `String`, arrays, tuples, `Option`, `BigUint`, `BigInt` incl. the const-evaluated field
  offset computations; ser_raw_derive and ser_raw_derive_serializer from parsed declaration to generated code.
* `debug_assert!`s, overflow checks and const assertions, at the place and with the condition of the source; both build modes.
* Raw memory: bytes possibly uninitialised, live heap blocks, validity of every pointer offset, copy, reference and allocator call.

### Not modelled / assumed

* rustc: layouts are arbitrary subject to `Prog.WF` (size multiple of alignment, fields disjoint and inside, `Vec`/`String` = three words in any
  order, enum discriminant in bytes not shared with edited words or determined by null-ness/capacity niche). Code generation is trusted.
* Aliasing models (Stacked/Tree Borrows, provenance) are not represented: UB is a violated contract of a std primitive (allocation
  validity, bounds, alignment, null, overlap with no live block), an invalid reference, or reading uninitialised memory as a value.
* The input is not changed while it is being serialized (interior mutability excluded), and lies outside the storage's blocks. Temporaries
  pushed by hand-written implementations may come and go, and reuse addresses (C76).
* The allocator keeps its contract (non-null result or failure, aligned, inside the address space, free of live blocks). In C01–C77 the heap of the model is the memory owned by one storage; C78 shows that it
  makes no difference if others share it (C88: for whole programs; C90: also for what is read back later). Which address, and
  whether a call fails, is arbitrary. `Vec<usize>` used internally for pointer positions (pos.rs) is an unbounded list: its own allocation failures are not represented (that it never exceeds `isize::MAX` bytes is C72).
* `catch_unwind`: panics unwind to the caller of the serializer method; `Drop` of values on the way is irrelevant to the serializer's state.
* Threads: the API needs `&mut`, so that one storage or serializer is used by one thread at a time; calls on different ones, on whatever threads, touch
  disjoint memory (C78, C88, C90, at the granularity of method calls; the allocator is thread-safe by its contract). This is what `unsafe impl Send/Sync` rely on.
* syn/quote/proc-macro parsing: the derive models start from the parsed declaration; types, bounds and predicates are passed through as opaque text. For
  `derive(Serialize)` the header of the impl is modelled (C86), under any notion of when a bound is satisfied; whether the body then type-checks against the field types
  (a field of a parameter type `T` needs `T: Serialize<__S>`, which no bound of the declaration can say) is left to rustc. For `derive(Serializer)` the headers are C87; the bounds the traits put on `Self::Storage` are left to rustc.
* Panic messages, `#[inline]`, performance.
* User impls are `Script`s: the calls one run makes. An impl that chooses its calls by what it reads (the input, returned positions, the serializer) or what its closures left in captured variables makes, on each run, some script: this is C77, and C83, C84 where it may also panic and the serializer is used for other things before and after, and C85 where it also catches panics and goes on; the histories of C83 and C84 include such implementations. On a shared heap (C78) all of them may be used too (C88). Typed sessions (C24–C37, C46–C48) use the crate's own and derived impls; C59 mixes both with direct storage operations.
