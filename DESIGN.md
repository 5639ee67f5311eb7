# ProtoJIT in Lean 4: design

Source modelled: `/repo` (oldmission/protojit, C++), read as text only.

## Trusted base

* Lean 4.33.0's kernel and the axioms `propext`, `Classical.choice`, `Quot.sound` (see "Axioms").
* That the definitions under `lean/Verif/Model` say what the cited C++ lines say. Each definition
  carries the file and line range it models and says where it is simplified.
* That the definitions under `lean/Verif/Spec` say what the properties mean (they are short; "How to
  read the statements" below lists them).
* Not modelled: MLIR/LLVM themselves (pattern application order, SSA construction, register
  allocation, the ORC JIT, LLVM's own passes), the C++ standard library, the PEGTL library (its combinators
  are given their documented meaning in `Model/Grammar.lean`), the text printed by `sourcegen.cpp`. Instead each IR operation is given
  the semantics of the LLVM instructions that `llvm_gen2.cpp` emits for it.
* For C45: that the C++ compiler lays out the generated classes by the rules of the Itanium ABI on LP64
  (`cpp` in `Model/HostGen.lean`): fields in order, each at the next multiple of its alignment; unions of the size
  of their largest member; `std::array` as a C array; libstdc++'s `sizeof(wchar_t) = 4`.
* For C57: that a load or store to which the lowering gives no alignment is one with the ABI alignment of its type, which for
  an integer or pointer of `w` bytes on x86-64 is `w`.

## Axioms

No file declares an axiom, uses `sorry`, `native_decide` or `bv_decide`. `tools/milestone.sh` prints
the axioms of every theorem named in `MANIFEST.json` before it commits and stops if one depends on
anything other than the three axioms above. Concrete witnesses are checked by `decide +kernel` or `rfl`,
that is by kernel reduction.

## Conventions

* Widths are bytes (`Width` in `arch_base.hpp` is bits; all modelled widths are whole bytes).
* Memory is `Nat → UInt8` (byte addressed). Integers are stored little endian (the target is
  x86-64). 64-bit arithmetic which can wrap in the C++/LLVM code is reduced mod 2^64 explicitly.
* Undefined behaviour, failed asserts and calls of null functions are explicit outcomes of the
  model (`none` or `.ub`), never a totalised default.
* Poison (`PoisonOp`, `memset` with undef) writes arbitrary bytes drawn from an oracle `Env.J` that
  the theorems quantify over. Float conversion is an arbitrary function `Env.fconv`.
* Nominal types are expanded to trees (`Model/Ty.lean`). Sharing and in-place change of shared named
  types are represented where a property is about them: `Model/Nominal.lean` (C20), `Model/Reflect.lean`
  (C29, C30, C31), `Model/PlanCtx.lean` (C54, which says when planning on trees is what the code does).

## Layout of the Lean project

* `Verif/Model/*.lean`  : the model (definitions with citations).
* `Verif/Spec/*.lean`   : small independent specifications used in statements.
* `Verif/Lemmas/*.lean` : helper lemmas.
* `Verif/Props/*.lean`  : the property theorems, each with a non-vacuity `example`. Names are
  `Cnn_...`; `Cnn_..._partial` when a hypothesis excludes inputs the property quantifies over,
  `Cnn_violated...` when the code is wrong and the negation is proved with a witness.
* `tools/` : `root.sh` writes `Verif.lean`, `manifest.py` writes `MANIFEST.json` from the theorems and
  `status.py`, `milestone.sh` builds, checks axioms and commits.
* `seeded/LOG.jsonl` : one line per wrong program tried against the theorems. `failed` starts with the theorems whose
  proof the edit broke when the modules were compiled in order, up to the modules that could still be compiled;
  after them come the `Cnn_*` theorems whose proofs use one of these (from the dependencies of the
  unedited project, so computed rather than observed).
* `Props/Planned.lean` states properties for protocols made by `plan` (no layout hypotheses); `Props/Defects.lean`
  has the witnesses of violations that several properties share.

## The model

| Module | Source | What it is |
|--------|--------|------------|
| `Ty` | `types.hpp` | types with all layout numbers: ints, floats, unit, structs, inline and outline variants, arrays, vectors |
| `Mem`, `Bytes`, `Word` | - | bytes, little endian words, 64-bit arithmetic |
| `Xcode` | `generate_ir.cpp` 195-888, 1068-1192; `llvm_gen2.cpp` 339-1080 | generated transcode and default functions as a state transformer (memory, write cursor, remaining size, callback slot) with outcomes ok / throw / undefined |
| `Size` | `sizing.cpp`, `generate_ir.cpp` 1013-1054 | the size functions, exact and rounded |
| `Codec` | `generate_ir.cpp` 897-1054, `llvm_gen2.cpp` 590-639, 881-965 | encode, decode and size entry points |
| `FnCache` | `generate_ir.cpp` 17-192, 1068-1192; `sizing.cpp` 15-101 | the pass that makes functions: keys, cache, names, calls by name, clones for size functions |
| `CopyTag`, `Dispatch`, `IntConv`, `Align` | `llvm_gen2.cpp` | enum table, tag dispatch, integer conversion, alignment |
| `Plan` | `plan.cpp`, `variant_outlining.cpp`, `vector_hoisting.cpp`, `wire_layout.cpp` | protocol planning |
| `Nominal` | `variant_outlining.cpp` | outlining when named types are shared |
| `PlanCtx` | `plan.cpp` 17-107, `convert_internal.cpp`, `variant_outlining.cpp`, `vector_hoisting.cpp`, `wire_layout.cpp` | protocol planning on named types that are stored in domains and changed in place |
| `TagWidth`, `Intern` | `types.hpp` | tag width, interning of variants |
| `BinCompat` | `types.cpp` 76-153 | binary compatibility |
| `Reflect` | `reflect.cpp` | reflect and unreflect with the shared pool |
| `ReflectWire`, `ReflectObj` | `reflect.pj`, `arch_base.hpp`, `schema/reflect.pj.v0_1.hpp`; `context.cpp` 152-259 | the type of reflected protocols in C++ and as sent, objects of it, sending and receiving protocols |
| `Any` | `reflect.cpp` 492-584, `generate_ir.cpp` 788-829, `any.hpp` | decoding into `Any` and looking into it |
| `Coalesce` | `copy_coalescing.cpp` | merging of copies in a block |
| `Extend` | `copy_extending.cpp` | making copies longer over poison, on control flow graphs |
| `SafeRead` | `llvm_utils.cpp`; `llvm_gen2.cpp` 339-366, `generate_ir.cpp` 207, 249, 373, 925, 990 | `isSafeToRead`, which both passes ask, and the promises it looks for |
| `StraightLine` | `generate_ir.cpp` 307-393, 1068-1148, 1159-1192; `llvm_gen2.cpp` 383-427, 1030-1080 | the block of instructions made for structs, integers and floats, as copy coalescing sees it; LLVM's own passes before (`context.cpp` 425-463) are not modelled |
| `CoalesceFn` | `copy_coalescing.cpp` 389-406 | copy coalescing of a function, and executions of functions block by block |
| `VariantCode` | `generate_ir.cpp` 238-305, 394-500; `llvm_gen2.cpp` 429-443, 544-588 | the blocks made for two inline variants whose terms are as in `StraightLine`; constant conditions are folded |
| `Aligned` | `llvm_gen2.cpp` 397, 422-423, 439, 463, 486, 512, 566, 704, 820, 841, 861, 874, 1041-1042 | `Xcode` and `Codec` with a check of the alignment that each load and store is compiled with |
| `Effects` | `side_effect_analysis.cpp` | which functions get the failure and callback slots |
| `Framing`, `RecordFile`, `OffsetSpan`, `Span` | `context.cpp` 152-259, `pjcat.cpp` 103-170, `offset_span.hpp`, `span.hpp` 18-69 | run time library |
| `Handles` | `runtime.hpp` 28-103, `runtime.cpp` 42-48, 363-386; `sourcegen.cpp` 818-838, 856-893 | who owns contexts and portals: constructors, moves, destructors, of the handles and of generated classes |
| `Print` | `pjcat.cpp` 19-91, 136-168 | what `pjcat` prints for an `Any`, and its loop over the messages; floats by an unknown function; a run may find the message and memory anywhere |
| `Path`, `Ident`, `Validate`, `VariantDecl`, `Imports` | `type_support.hpp` 324-365, `protogen.hpp`, `parse.cpp`, `validate.cpp` | paths, names, validation, tag assignment, imports |
| `HostGen` | `sourcegen.cpp` 40-240, 360-640; `include/pj/{array,float,integer,span}.hpp`; `runtime.cpp` 264 | the C++ classes generated for a schema, their layout, and their description for the runtime |
| `WireGen` | `sourcegen.cpp` 143-229, 289-320, 357-426, 569-659; `runtime.cpp` 100-290 | the wire protocol that generated code builds |
| `PortalGen` | `sourcegen.cpp` 233-241, 701-1085; `pjc.cpp` 115-130; `context.cpp` 261-305, 341-573; `runtime.cpp` 317-383 | the classes generated for portals and precompiled portals, and what they do when they run |
| `Grammar` | `parse.cpp` 200-953 | the grammar of schema files as parsing expressions yielding syntax trees |
| `Elab` | `parse.cpp` 188-246, 411-987; `protogen.hpp` 34-103 | the actions of the parser: the types, specifications, portals and headers that a file with its imports defines |

Simplifications that hold throughout: validity of addresses is not
represented, and alignment of memory accesses only in C57 (everywhere else an access is good at any address); sizes computed while planning are unbounded naturals; array lengths are below 2^63; `std::sort`
on terms of equal name is taken to be stable; identifiers are ASCII; alias analysis is sound (C35, C42).

## How to read the statements

* `readVal m t a` (`Spec/Value.lean`): the abstract value (`Val`) of the object of type `t` at `a`; `none` if
  a tag or length is not allowed. Names, not offsets or tags, identify fields and terms.
* `conv F t v` (`Spec/Value.lean`): the value a receiver of type `t` should get for `v`.
* `fin t v p` (`Spec/Cursor.lean`): where the write cursor ends when `v` is written from `p` on.
* `WF` (`Spec/Layout.lean`): no overlaps, tags distinct and below 2^63, lengths storable.
* `Compat` (`Spec/Layout.lean`): the pair of types is outside the defects 3, 4 and 7 below.
* `Tame` : `Compat` without the part about enums; enough for where things are written (frame, size). `noPart`:
  no vector keeps elements inline, as in all types made by the front ends. `OutGiven`: no outlined variant of the
  destination is defaulted.
* `HostTy` (`Props/C01_RoundTrip.lean`): what the front ends guarantee about a host type.
* `Fits`, `Sch`, `Small`, `Elems` (`Spec/Fits.lean`, `Spec/Schema.lean`), `view` (`Spec/Any.lean`).

`Evolves` (`Spec/Evolve.lean`) compares two declared types: same kind for the same name, and outside the known
defects of enums and vectors. `Kept` says that the second type has room for every value of the first. The wire
type between them does not occur in either. `Supplied` is for a sender with the protocol of another schema: it has
the vectors by whose length the encoder chooses between the terms made by splitting, and does not need a default
term that is split (without it the encoder writes no term, `C10_violated_default`, `C39_violated`). `Led`: the
variant at the tag path is a variant in the sender, too (otherwise its payload is defaulted, which the model of
outlined variants excludes by `OutGiven`).

C45 is about schema types (`STy`). `cpp t`: size and alignment of the generated C++ class; `describe t`: the type
that the generated `BuildPJType` builds; `cppVal m t a`: the value of the C++ object at `a`, by the C++ layout
alone. `Accepted` is what the parser lets through, `Safe` excludes the defects of findings 11, 18, 26 and 27.

C46: `hasFloat` and `dropAttrs` (`Spec/WireGen.lean`) are what their names say; `Unhoisted`: no term of the first
variants has a vector with a wire minimum apart from its maximum, so that hoisting has nothing to do.

C47: `Text k s` (`Spec/Grammar.lean`): the file `s` consists of the tokens `k`, with gaps (white space, comments that
end with their line) next to keywords and punctuation; words must not run together. `declToks`: the tokens of
declarations. `DeclsOK`: no empty names, and no type is referred to by a name that begins like `int8`.

C48: `elabRoot fs asSpec f` is the outcome of the compiler's front end on the file `f`: a scope, an exception, or
undefined behaviour. Types (`PTy`) have their names; `PTy.sty` forgets them, which leads to the schema types of C45 (there
is none for `any` and external types). `LeadsToVariant t p n ts d`: the path `p` leads through fields of `t` to the variant
`n`. `Reaches`: through imports. In `C48_written`, an `Item` (`Spec/Written.lean`) is what a file is to define, with full
names; `Item.decl` is how it is written, `Item.add` what the scope has afterwards, and `ItemsOK` says that each item refers
to items before it by names that are not hidden and can be written. `Visible l space n`: from the spaces `space` no longer
name of the list hides `n`.

C49: `PassStep` is the lowering of one operation (any one of those left), with a cache of functions by key; `PassRun base es n
g`: the module `g` is reached in `n` steps from the entries `es`. `base` is how a key prints, about which nothing is
assumed. `runEncode`, `runDecode` and `runSize` run the entries of a module, where bodies call functions by name; `encode`,
`decode` and `sizeFn` are those of the other properties, where everything is inlined. `fuel` bounds how deep calls are
nested: any number from the depth of the destination type on gives the same result.

C50: `genFile outer sc g` is what is written for the file `g` of an accepted scope (`none`: the compiler crashes).
`c.Compiles`: the names in the class obey the rules of C++ in `MembersOK`; nothing else that C++ demands is modelled.
`Constructed base D c p o`: a constructor of the class has returned the object `o`, with protocol `p`; `D` is what
`BuildPJType` makes of the types, by C45. `Precompiled`: the generated program has written an object file. `Serves sc p q
size enc dec`: calling the methods by name gives `sizeFn`, `encode` and `decode` with what the portal `q` declares.

C51: two files, and methods that serve a portal of each (so objects of portal classes or of precompiled ones, by C50). `p`
is the sender's protocol, planned from the type `k` of the encoder's argument; `p'` is the receiver's, equal up to what
reflection loses (`forget`, C29). `Holds path v`: the value holds the term that the encoder was made for (C40).

C52: `Refl.host` describes the C++ type `reflect::Protocol`, `Refl.proto` is the protocol of
`schema/reflect.pj.v0_1.hpp`, copied number by number. `objOf p` is the value of the object that `reflect` makes, `ofObj` what
`unreflect` reads; how `reflect` fills the memory is not modelled, only that the object has this value. `buffers k` is the
address that the allocator gives in round `k` of `decodeProto`.

C53: `Json.Text` is a JSON reader of its own, for texts without white space, fractions and escapes. `jsonOf` says what an
`Any` is in JSON, `Clean` excludes floats and characters that need an escape. `Cat.Msgs` is a relation between messages and
output, so that the theorems say that there is a run and that all runs print the same. `Written` ties a message to an object,
`Cat.OK` to the reader's description of the reflectable type. `view` is the specification of C31.

C54: `addr` gives the digits of the address that MLIR has stored a type at, which become part of names. `SuffixFree` says that
no address ends with the digits of another one (with addresses of the same length: that they are different); it is
asked for all types, and that there are such functions is shown with the countability of types, the only use of Mathlib.
`Named` says that a struct is not called like one that splitting makes. `uses` counts the places where a type is used, `int`
is anything that earlier plannings left in the internal domain.

C55: a `PtrFun` is what `isSafeToRead` sees of a function: pointers made of pointers, and promises (`invariant.start`) about
them. `At r i d`: pointer `i` is `d` bytes after `r` in every run. `Inside n is`: the copies of a block read among the first `n r`
bytes of `r`. `Promised r n`: no promise about `r` goes beyond `n`. `Ty.promises` are those made about a source of a type.

C56: `lower` makes the instructions of a conversion between two types, `none` if there are branches or loops in it. `runBlock`
runs them on a memory with undefined bytes; a theorem about "every `M`" with the defined bytes says that it does not matter
what the undefined ones are. `Aliasing.Sound` is what is assumed of LLVM's alias analysis. `tidy`: the structs inside of the
destination start with bytes that are copied as they are. `unpoisoned` drops the poisons, as LLVM may do before.

C57: `Chk` says which side is checked: `src` the loads, `dst` the stores. `aEncode` and `aDecode` are `encode` and `decode` with
a check before each access, and undefined behaviour where one fails, so that a theorem says that both are the same.
`natAlign w` is the alignment of an access that is not given one. `Told`: the numbers of a layout keep its parts aligned. `Ptrs`: the
references in an object point to aligned elements. `Narrow`: no reference, and no tag or length of more than a byte.

C58: `lowerVariant` makes the function for two variants: block 0 loads the tag and jumps, block 1 is for unknown tags, then come
the terms. `CFn.Reach`: an execution leads from one state (block and memory) to another; block `none` is the caller. `Leaves f m t da w`:
`f` returns, and whenever it does there is `w` at `da` and all else is unchanged. `TidyTerms`: terms that are converted into
each other are `tidy`. `CFn.unpoisoned` drops the poisons of all blocks. In C35, `CFn.OK` says that the blocks an execution enters fulfil the condition for blocks
(`FlushOK`), and `CBlock.Mono` that jumps do not depend on undefined bytes (they would be undefined behaviour).

C59: a program is a list of statements; `Typed` says that C++ compiles it and that variables live, `Unmoved` that it uses no
variable after it was moved from (the pointer that it needs is not null). `run` gives `none` for undefined behaviour.
`overwritten` are the contexts and portals in variables at the time they are assigned to.

C60: `eval e M` is the span that an expression of type `span<T, M>` makes, `none` if it throws; `bounds` are the bounds of all
spans on the way, `source` the data it starts from.

## Proof methods

| Id | Method |
|----|--------|
| C01 | `xcode` refines `conv` (a Hoare logic with footprints, `Lemmas/Tri.lean`, by mutual induction on destination types); planning relates host and wire type (`Rel`), and for related types `conv` is the identity |
| C02 | the footprint invariant is closed under relocation (`Lemmas/Good.lean`) |
| C03 | lockstep simulation of the size function with `xcode`, frame theorem |
| C04 | the size functions count `cost`, which is monotone in lengths; terms split by hoisting are compared through the schema type they were made from (`choose`, `Family`) |
| C05, C07 | invariants of `xcode` on arbitrary message bytes (no well-formedness of the message) |
| C06 | exact cursor theorem `xcode_cur` |
| C08, C40 | induction on the path; `C08_index`: invariant of the state (`Lemmas/Inv.lean`) |
| C09, C10, C13, C14, C39 | corollaries of the refinement |
| C11, C12, C17, C21, C32, C41 | arithmetic, lists |
| C15, C16, C20 | induction on types through the planning passes |
| C18, C19 | termination measure and invariants of one hoisting step |
| C22, C29, C30 | induction over types with an invariant on the pool |
| C31 | the reflectable type stripped of unreachable terms (`lead`) is a receiver like any other; then a simulation between the pool and the tree |
| C23-C28, C33, C36, C38 | induction on strings, lists, scopes, import graphs |
| C34 | reachability invariant of a breadth first search |
| C35 | invariant relating memory with pending copies to memory without; for functions, lockstep simulation with refinement of undefined bytes |
| C37 | induction on types |
| C42 | lockstep simulation with refinement of undefined bytes; an invariant along the path of the execution says that the region is still poison |
| C43, C44 | `Evolves` is carried through planning along `Rel` to `Compat` with the planned wire type, then C02; values by induction over the types; for senders with another protocol, planning is shown not to change the conversion (invariant over the splitting steps) |
| C45 | mutual induction on schema types; the layout of structs by an invariant on the running offset |
| C46 | `rebuild` commutes with the last planning passes; the transcoder does not look at the attributes of its source (`xcode_dropSrc`), and as a destination the first term of a name takes every payload (`plan_leads`) |
| C47 | for every rule, soundness (what it reads is a text of its tree) and completeness (it reads every text of its tree up to what follows), composed along the grammar; induction on the length for repetition and nesting |
| C48 | the parser as a transition system on scopes (`DeclStep`, `FileRun`), an inductive invariant (`ScopeInv`, `OrderedFile`), and induction on types to connect with C20 and C45; `C48_written` by inverting each action on what is written, with C23, C24, C26 and C47 |
| C49 | invariant of the pass (`PassInv`); a body depends on the operations it contains only, and with inlined operations it is the inlined function; induction on the depth of types. Termination: the number of operations with everything inlined decreases |
| C50 | inversion of the generator; lookup by name in lists without duplicates; paths are the same after printing and parsing (`C23_reparse`); C48 for what portals refer to, C49 for the code |
| C51 | composition: C50 for the methods, C48 for types and handlers, C45 for C++ objects, C40 for the encoder's path, C02, C03 and C04 for the message and its size, C29 for the transported protocol, C43 for the receiver's version, C08 for handlers; that accepted handler paths are usable by induction on types (`HsOK_led`) |
| C52 | `C52_schema` and `C52_host` by evaluation, of two closed terms; then C04 and C02 for the message, induction on the rounds with C06, `ofObj` is shown to invert `objOf`, and C29 |
| C53 | mutual induction on what an `Any` shows, for the text being read back; induction on the type for `view` being injective up to JSON; induction on the messages with C31; C33 and C52 for the file |
| C54 | every pass on the store refines the pass on trees, by induction on the depth; an invariant says which stored types differ and that nothing else of the type reaches them (`uses`) |
| C55 | the two searches of `isSafeToRead` are characterised by induction along definitions; invariant of the pending copies (with that of C35); induction on types for the promises |
| C56 | simulation of `xcode` by the lowered block (mutual induction on types); `FlushOK` of the block by induction with the set of bytes still to be written; invariant of the pending copies (`C35_flush_partial`, an extension of that of C35); composition with C01 and C55 |
| C57 | mutual induction on types, following `xcode`: checked and unchecked functions agree; induction on schema types and on planned types for the layouts; for decoded objects the program logic of C01 (`GoodAt` also says where references point) |
| C58 | simulation of `xcode` by the two blocks an execution enters; `FlushOK` of every block as in C56; then C35 for functions; unknown tags with the dispatch of C21 and the defaults of C10; for the round trip `Rel` gives code for each pair of terms |
| C59 | invariant over all statements: no context or portal is in two variables, and each one made is deleted, in a variable, or was overwritten |
| C60 | induction on the expression |

## Findings

Defects of the source, found while modelling. Where a theorem is named it proves the defect in the
model with a concrete witness. "Read only" means seen in the source but outside the model.

1. `Term::isBinaryCompatibleWith` compares the type of the term with itself (`types.cpp` 109):
   `C22_violated_term`.
2. `UnitType` is binary compatible with every type: `C22_violated_unit`.
3. `CopyTagOp` (enum fast path, `llvm_gen2.cpp` 445-542): unknown terms get tag 0 instead of the default's
   tag (`C11_violated_unknown_term`), raw tags behind the table read out of bounds
   (`C11_violated_out_of_bounds`), a table as large as the range of the tag type has a size that wraps to 0 in the
   comparison, so that every term becomes the default (`C11_violated_full_table`), equal terms are copied without looking at unknown raw tags
   (`C11_violated_exact_copy`). Consequences: `C10_violated_enum`, `C09_violated`, `C13_violated`; handlers of enums are ignored
   (`C08_violated_enum`).
4. `transcodeOutlineVector`: when the sender keeps more elements in the head than the receiver can hold,
   elements are written behind the receiver's vector: `C14_violated`. The size function does not count them:
   `C03_violated`.
5. A handler is called although a later field failed to decode: `C07_violated`.
6. The byte count of a hostile vector length wraps modulo 2^64, so that the bounds check passes and decode
   writes outside its buffer: `C05_violated`. A length above the maximum violates an `assume`
   (undefined behaviour).
7. Defaulting an outlined variant writes outside the field: `C37_violated`.
8. An unknown source term whose kind differs from the default term's calls a null function:
   `C10_violated_kind`, `C06_violated`.
9. The default block of a variant whose default term was split by hoisting: from a `Unit` source the
   condition casts a non-vector (crash while compiling); from another source the condition may be false and
   then no tag is written: `C10_violated_default` (the message has no value), `C39_violated` (its value is what
   the memory held before), `C02_violated` (its value depends on bytes behind it).
10. `MatchOp` sorts tags unsigned and compares them signed: with tags from 2^63 on the dispatch is wrong:
    `C21_dispatch_violated`, `C40_violated`, `C01_violated`.
11. `compute_tag_width`: tag 2^64-1 overflows (`C17_max_tag_undefined`), a single tag 0 gives width 0
    (`C17_width_zero`).
12. `WireLayout` divides by the element size, also when it is 0 (`Ty.planDef`).
13. `CopySet::canReorderWith` ignores writes to the destination, `matchLoadAndStore` skips what is between
    load and store, copies whose source is another copy's destination are reordered:
    `C35_violated_overwrite`, `C35_violated_between`, `C35_violated_alias`.
14. The parser can give tag 0, reserved for `undef`, to another term when the default is explicit:
    `C25_reserved_zero_violated`.
15. The decode retry loop of `pjcat` writes into a buffer smaller than it says: `C33_retry_violated`.
16. Reflection does not transport `wire_min_length`: `C29_violated`.  No generated function looks at it:
    `C29_codec`.
17. Outlining changes nominal structs in place: every use of the struct is outlined: `C20_violated`.
18. `max_length = 0` gives a length word of width 0 (excluded by `Sch`).
19. A file imported twice on different ways (diamond) is rejected: `C27_diamond_rejected`.
20. `decodeProto` stops at the first version it does not know although an older one is in the list:
    `C28_violated`.
21. Read only: `assert(src_term != nullptr)` after `find_if` dereferences `end()` if a path names an unknown
    term (`generate_ir.cpp` 433-440; the model says undefined).
22. Read only: `decodeProto` loops forever on a message that never decodes.
23. `CopyExtending::findFrontier` finds copies with one clean way from the poison to them; on another way, or in
    the next iteration of a loop, bytes of the region may have been written, and the extended copy destroys them:
    `C42_violated_join`, `C42_violated_loop`. The check of the room left in the region wraps for copies that start
    behind it: `C42_violated_behind`.
24. Read only: the domain of reflectable types is shared by all protocols of a context. Two protocols with
    structs of the same name overwrite each other's reflectable type, and the size that was put into
    `ReflectOp` may be another one.
25. Read only: the reflectable version of a hoisted variant has several terms of one name and no
    attributes. The right one is found only because `std::sort` happens to keep the long term first
    (`Model/Any.lean` takes the order as it is).
26. `BuildPJType<array<Elem, N>>` takes `sizeof(Elem)` of the tag type `pj::integer<..>`, an empty struct, for the
    distance of the elements (`array.hpp` 28). Arrays of integers of more than one byte are described as
    overlapping: `C45_violated_array`; their elements are lost on the way: `C45_violated_round_trip`. (Tests only use arrays of
    `char8` and of structs.)
27. `char16` is `wchar_t` in C++, which has 4 bytes: `C45_violated_wchar`. (As a field it does not compile.)
28. The description of `double` has the alignment of `float` (`float.hpp`): `C45_violated_align`.
29. Read only: `span.hpp` passes `outlined_payload_alignment` in bytes instead of bits (the number is not used);
    `span::operator=` names a member that does not exist; self-assignment of a generated variant destroys the
    payload before copying it.
30. The statement that the generated code of a wire protocol has for a float lacks its closing parenthesis
    (`sourcegen.cpp` 171-178). `--gen-proto` output does not compile for any schema with a float:
    `C46_violated_float`.
31. `PJCreateTerm` has no attributes (`runtime.cpp` 151-159), so the code generated for a protocol with split terms
    builds another one: it is not binary compatible with the planned one, and its encoders never use the short terms
    (`C46_violated_split`). Values are kept only because the long term comes first (`C46_round_trip_partial`).
32. A type may be named `int8_t` (or `float2`, `charset1`, ...), but no file can refer to it: `NonArrayType` tries the
    builtin types first and they are not keywords (`parse.cpp` 248-263, 301-303): `C47_reserved_name`,
    `C47_never_referred`.
33. A file that contains only white space or comments is rejected (`C47_blank`), as is a comment in the last line
    without an end of line (`C47_comment_at_end`), and anything after a `language` text at the end of a file, such as
    the usual newline (`C47_text_at_end`; `LanguageDecl` is not padded).
34. Numbers from 2^63 on are not checked for after `std::from_chars` (`parse.cpp` 234, 268, 325, 348, 358), and the
    variable is not initialised: `C48_violated_range`.
35. A portal that has the name of an imported portal: `portal_defs.emplace` keeps the imported one, and then gives it the
    new specification (`parse.cpp` 908-919). The coders of the new declaration are lost: `C48_violated_portal`.
36. The test for an existing specification looks the full name up relative to the enclosing spaces (`parse.cpp` 746), so
    that `a.S` is rejected because of `a.a.S`: `C48_violated_spec_name`.
37. `@v . _` is allowed by the grammar, but the blanks become part of the names, so that the path is not found:
    `C48_violated_layout`.
38. `precompile` finds the portals of its own file only: `C48_violated_precomp`. An import sees what siblings imported
    before it have defined: `C48_violated_import`. Coders of the same name are accepted: `C48_violated_items`.
39. `DefaultOp` reads from types named `<empty>` in the host domain (`generate_ir.cpp` 1171-1181), which a user of the C API
    can define with fields (read only; schema files cannot use the name). Suffixes of function names come from `rand`
    until one is unused: with 2^31 functions of the same print the pass does not end (`C49_ends` has this limit).
40. The rounded size takes the maximum length of a vector (`sizing.cpp` 84-101) and multiplies it by the element size in 64 bits
    (`llvm_gen2.cpp` 797-798). With a maximum of 2^61 elements of 8 bytes it is 0 and the encoder writes
    behind the buffer: `C04_violated`.
41. Handlers on two variants of one type are accepted (`parse.cpp` 828-856), but a decoder has one callback slot: only the
    handler of the variant stored last is called: `C08_violated_two`.
42. A tag given as a character outside ASCII is sign extended to 64 bits (`parse.cpp` 491-497): `C48_violated_char`. With such a tag
    C01 is false (`C01_violated`). An import inside a space is looked for with the name of the space in front (`parse.cpp` 652-655):
    `C48_import_in_space`.
43. Names of coders go into the generated class unchecked. It does not compile if one is `ctx`, `proto` or `portal` (members
    with an underscore), if there are `f` and `f_`, two of the same name, a keyword, or the name of the class
    (`C50_violated_class`); with a coder named `memcpy` the constructor aborts (`C50_violated_memcpy`, `context.cpp` 559-571).
44. Specifications for aliases of arrays, vectors and so on are accepted, and the compiler crashes on them in
    `cast<NominalType>` (`sourcegen.cpp` 240, 833): `C50_violated_head`. Coders for aliases of integers are accepted, but
    nothing describes such a type: `C50_violated_integer`.
45. Symbols of precompiled coders and variables of the program that precompiles are names joined with underscores, which
    is not injective: `C50_violated_symbols`, `C50_violated_variable`. The methods of decoders are templates over the type of
    the state, but the member they call is for `void` (`sourcegen.cpp` 884, 892-897), so that only `S = void` compiles, and the
    default argument is on the definition outside of the class (701-711); read, not modelled.
46. `reflect.pj` declares the external enums `Sign` and `ReferenceMode`, whose terms get the tags from 1 on, 0 being the
    implicit `undef`; the C++ enums (`arch_base.hpp` 10-16) count from 0. So `kSigned` is sent as `undef`, `kUnsigned` as
    `kSigned`, `kSignless` as `kUnsigned`, `kPointer` as `undef`, `kOffset` as `kPointer`. Sender and receiver make the same
    mistake, so protocols survive; nothing else may look at the names.
47. These enums are `int`s in C++, the schema describes one byte. Decoding poisons the whole object first
    (`generate_ir.cpp` 350-352), then writes one byte, and `unreflect` reads four (`reflect.cpp`): the other three are undefined,
    although `decodeProto` has zeroed the buffer. `C52_violated`.
48. `print` does not escape strings (`pjcat.cpp` 64-71): text with quotes in it changes what the line says, and different
    values print alike. `C53_violated`. Floats are printed with six digits, infinities and NaNs not as JSON (read off the code,
    not modelled).
49. Vectors are split in the first variant only, but in place: if the type uses this variant twice, both are changed, so the
    planned type depends on whether two equal variants have the same name. `C54_violated`.
50. The struct made by splitting is called like the old one with the address of the inner type appended in decimal
    (`vector_hoisting.cpp` 62-67), without a separator. `a` with 12 and `a1` with 2 are the same name, and `setTypeData` makes the
    first one into the second: a term then has the vector of another term. `C54_violated_names`. It needs addresses with
    different numbers of digits.
51. `isSafeToRead` takes a promise wherever in the function it is made. The terms of an outlined variant are at the same place
    after the head of a message, and each branch of the decoder promises that its term is there (`generate_ir.cpp` 249). A
    message with a short term ends before the place of a longer one, but in the branch of the short term the promise about
    the longer one counts: copies of the short term are made longer beyond the end of the message, by up to the next power of
    two. `C55_violated` (5 bytes, and the sixth is read). The bytes read are overwritten afterwards, so that this matters if they
    are not mapped. Unrolled loops over the elements of a vector in a message make the same kind of promises about elements that
    may not be there (read off the code, not modelled).

The model of the grammar was run on the schema files in `/repo` (as text): it accepts all of them but
`test/bzl.pj`, which no build target uses and which has the keyword `protocol` of an earlier version. The model of the actions
accepts them as well.

52. A struct that the receiver has and the sender does not gets its default value, and coalesced code overwrites it: the
    poison that is made for the struct waits with the copies of the fields around it, the default is stored before all of
    them, and then the copy of the field before is made longer (`copy_coalescing.cpp` 311-325) because the poison after it
    counts as memory that will be overwritten. `C56_violated`: `{ a : u16, b : u8, d : u8 }` received as
    `{ a : u16, b : u8, c : { x : u8 }, d : u8 }` has the sender's `d` in `c.x` instead of 0. The same happens with structs that
    start with a converted field. It does not happen if earlier passes of LLVM have removed the poisons (`C56_bare_partial`),
    which these theorems say nothing about. Inside of the term of a variant it is the same: `C58_violated`.
53. Everything in a message has the alignment 1, and numbers are accessed so, but tags, lengths and references are loaded and
    stored without an alignment (`llvm_gen2.cpp` 439, 463, 486, 512, 566, 704, 820, 841, 861, 874), which is a promise of the natural one.
    In a message they are anywhere: undefined behaviour, which x86-64 tolerates until LLVM uses it (aligned vector moves, or
    address arithmetic by `or`). `C57_violated_length`, `C57_violated_load`, `C57_violated_tag`. A message that starts with a
    vector needs a buffer at a multiple of 8 (`C57_vector_address`), which `encode` nowhere asks for.
54. The elements of a decoded `float64[:]` are at a multiple of 4 only, because of finding 28: `C57_violated_double`.
55. `operator=` of `runtime::Portal` and `runtime::Context` (`runtime.hpp` 38-42, 98-102) does not delete what the handle
    held: `portal = ctx.compile();` a second time leaks the first portal with all its code, and assigning a generated class leaks its
    context and its portal. Assigning a handle to itself empties and leaks it. `C59_violated`.
56. An object of a generated class that was moved from has a null context and portal but still its functions, which
    work as long as the other object lives and then are in memory that was freed: `C59_moved_violated`.
