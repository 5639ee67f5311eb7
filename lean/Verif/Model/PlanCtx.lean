import Verif.Model.Plan
import Verif.Model.Reflect
import Verif.Model.Nominal
/-!
# Planning with nominal types

`Model/Plan.lean` models the passes of `plan_protocol` (`pj/plan.cpp` 62-107) on trees.  This module models
them as they are: structs and variants are looked up by kind and name in the domain, and `setTypeData`
changes them for everything that refers to them.  A `Ctx` has the nominal types of one domain: the host's,
which `ConvertInternal` reads; the internal one, which is shared by all plannings of a process, so that it
has anything in it that earlier plannings have left there; and the wire domain, which is new for every planning
(`wire_domain_{WireDomainAttr::unique(&ctx)}`, `pj/wire_layout.hpp`).

Simplifications: a reference has no domain, the pass says in which `Ctx` it is to be looked up;
`outline_variant` (`pj/types.cpp` 27-35) is computed when it is asked for; recursion depth and number of
rounds are bounded by `fuel`, and `none` means out of fuel, undefined type or undefined behaviour.
-/
namespace PJ

/-- `headSize` (`pj/types.hpp` 57, 115, 207, 250, 355, 397, 616, 751). -/
def refSize (ctx : Ctx) : Ref → Nat
  | .int w _ _ => w
  | .float w _ => w
  | .unit => 0
  | .array _ n esz _ => n * esz
  | .vector _ l => l.size
  | .nom k => match ctx k with
    | some (.struct _ s _) => s
    | some (.inl _ d) => d.size
    | some (.out _ d) => d.tagW
    | none => 0

/-- `headAlignment` (`pj/types.hpp` 58, 116, 208, 251, 356, 399-404, 617, 756). -/
def refAlign (ctx : Ctx) : Ref → Nat
  | .int _ _ a => a
  | .float _ a => a
  | .unit => 1
  | .array _ _ _ a => a
  | .vector _ l => l.align
  | .nom k => match ctx k with
    | some (.struct _ _ a) => a
    | some (.inl _ d) => d.align
    | some (.out _ d) => max d.tagAlign d.termAlign
    | none => 0

/-- A name with something done to its last component. -/
def mapLast (f : Comp → Comp) (n : List Comp) : List Comp := n.dropLast ++ [f (n.getLastD [])]

/-! ## ConvertInternal -/

/-- The loops over fields and terms (`pj/convert_internal.cpp` 11-13, 22-24). -/
def convertAll (step : Ref → Ctx → Option Ctx) : List Ref → Ctx → Option Ctx
  | [], int => some int
  | r :: rs, int =>
    match step r int with
    | none => none
    | some int => convertAll step rs int

/-- `ConvertInternal::convert` (`pj/convert_internal.cpp` 6-43): what it makes of a type has the same name, and
`setTypeData` and the calls of `replaceStructField` and `replaceVariantTerm` give it the data of the type of the
host, with the same names in it. -/
def convertC (host : Ctx) : Nat → Ref → Ctx → Option Ctx
  | 0, _, _ => none
  | n + 1, .nom k, int =>
    match host k with
    | none => none
    | some (.out _ _) => none
    | some d => convertAll (convertC host n) d.kids (setTypeData int k d)
  | n + 1, .array e _ _ _, int => convertC host n e int
  | n + 1, .vector e _, int => convertC host n e int
  | _ + 1, _, int => some int

/-! ## VariantOutlining -/

/-- The first field for which something is found, and what is found. -/
def firstField {α} (step : FieldD Ref → Option α) : List (FieldD Ref) → Nat → Option (Nat × α)
  | [], _ => none
  | f :: fs, i =>
    match step f with
    | some x => some (i, x)
    | none => firstField step fs (i + 1)

/-- A list of fields in which one has another type. -/
def withField (fs : List (FieldD Ref)) (i : Nat) (r : Ref) : List (FieldD Ref) :=
  fs.modify i fun f => { f with ty := r }

/-- `TypePass::replaceStructField` (`pj/plan.cpp` 18-31) without a new name. -/
def setField (ctx : Ctx) (k : Key) (i : Nat) (r : Ref) : Option Ctx :=
  match ctx k with
  | some (.struct fs size al) => some (setTypeData ctx k (.struct (withField fs i r) size al))
  | _ => none

/-- The name of the outlined variant (`pj/variant_outlining.cpp` 16-19). -/
def outlineKey (k : Key) : Key := ⟨.out, mapLast outlineName k.name⟩

/-- `VariantOutlining::tryOutlineVariant` (`pj/variant_outlining.cpp` 8-48). -/
def outlineC : Nat → Ctx → Ref → Path → Option (Ref × Ctx)
  | n + 1, ctx, .nom k, path =>
    if path = [] then none
    else
      match ctx k with
      | some (.inl ts d) => some (.nom (outlineKey k), setTypeData ctx (outlineKey k)
          (.out ts { dflt := d.dflt, tagW := d.tagW, tagAlign := 0, termOff := 0, termAlign := 0 }))
      | some (.struct fs _ _) =>
        match firstField (fun f => outlineC n ctx f.ty (path.into f.name)) fs 0 with
        | some (i, r, ctx) => (setField ctx k i r).map fun ctx => (.nom k, ctx)
        | none => none
      | _ => none
  | _, _, _, _ => none

/-! ## VectorHoisting -/

/-- `VectorHoisting::Split` (`pj/vector_hoisting.hpp` 46-51). -/
structure SplitC where
  len : Nat
  short : Ref
  long : Ref
  path : Path

/-- The lengths and the element width of the vectors of a split (`pj/vector_hoisting.cpp` 22-29, 32-39). -/
def bareVecC (ctx : Ctx) (e : Ref) (maxLen : Option Nat) (wireMin : Nat) : VecL :=
  { minLen := 0, maxLen := maxLen, wireMin := wireMin, ppl := 0, lenOff := 0, lenSize := 0, refOff := 0,
    refSize := 0, mode := .offset, inlOff := 0, parOff := 0,
    elemW := roundUp (refSize ctx e) (refAlign ctx e), size := 0, align := 0 }

/-- The name of a struct in which a field has the type `inner` (62-67): the decimal digits of the address of
the type are appended.  `addr` has these digits. -/
def splitKey (addr : Ref → Comp) (k : Key) (inner : Ref) : Key := ⟨.struct, mapLast (· ++ addr inner) k.name⟩

/-- `get_struct` (`pj/vector_hoisting.cpp` 54-72). -/
def getStruct (addr : Ref → Comp) (ctx : Ctx) (k : Key) (i : Nat) (inner : Ref) : Option (Ref × Ctx) :=
  match ctx k with
  | some (.struct fs size al) =>
    some (.nom (splitKey addr k inner),
      setTypeData ctx (splitKey addr k inner) (.struct (withField fs i inner) size al))
  | _ => none

/-- `splitFirstEligibleVector` (`pj/vector_hoisting.cpp` 11-83). -/
def splitC (addr : Ref → Comp) : Nat → Ctx → Ref → Option (SplitC × Ctx)
  | _ + 1, ctx, .vector e l =>
    if l.wireMin = 0 ∨ l.maxLen = some l.wireMin then none
    else some
      ({ len := l.wireMin
         short := .vector e (bareVecC ctx e (some l.wireMin) l.wireMin)
         long := .vector e (bareVecC ctx e l.maxLen 0)
         path := [['_']] }, ctx)
  | n + 1, ctx, .nom k =>
    match ctx k with
    | some (.struct fs _ _) =>
      match firstField (fun f => (splitC addr n ctx f.ty).map fun x => (f.name, x)) fs 0 with
      | some (i, name, s, ctx) =>
        match getStruct addr ctx k i s.short with
        | none => none
        | some (short, ctx) =>
          match getStruct addr ctx k i s.long with
          | none => none
          | some (long, ctx) =>
            some ({ len := s.len, short := short, long := long, path := Path.expand s.path name }, ctx)
      | none => none
    | _ => none
  | _, _, _ => none

/-- The loop over the terms (92-129): the terms with the long version in place, and the short version. -/
def splitTermsC (step : Ref → Option (SplitC × Ctx)) (tag : Nat) :
    List (TermD Ref Attr) → Option (List (TermD Ref Attr) × TermD Ref Attr × Ctx)
  | [] => none
  | t :: r =>
    match step t.ty with
    | some (s, ctx) =>
      some ({ t with ty := s.long, attrs := t.attrs ++ [.split false s.len s.path] } :: r,
        { t with ty := s.short, tag := tag, attrs := t.attrs ++ [.split true s.len s.path] }, ctx)
    | none =>
      match splitTermsC step tag r with
      | some (l, x) => some (t :: l, x)
      | none => none

/-- `hoistVectors` (85-151): `none` if there is nothing to split. -/
def hoistOnceC (addr : Ref → Comp) (n : Nat) (ctx : Ctx) (v : Key) : Option Ctx :=
  match ctx v with
  | some (.inl ts d) =>
    match splitTermsC (splitC addr n ctx) (freeTag (ts.map (·.tag))) ts with
    | some (l, s, ctx) => some (setTypeData ctx v (.inl (l ++ [s]) d))
    | none => none
  | some (.out ts d) =>
    match splitTermsC (splitC addr n ctx) (freeTag (ts.map (·.tag))) ts with
    | some (l, s, ctx) => some (setTypeData ctx v (.out (l ++ [s]) d))
    | none => none
  | _ => none

/-- `while (hoistVectors(var))` (155-157). -/
def hoistLoopC (addr : Ref → Comp) (n : Nat) : Nat → Ctx → Key → Option Ctx
  | 0, _, _ => none
  | m + 1, ctx, v =>
    match hoistOnceC addr n ctx v with
    | none => some ctx
    | some ctx => hoistLoopC addr n m ctx v

/-- The variant at which `findVariantAndHoist` (153-170) ends. -/
def firstVariant : Nat → Ctx → Ref → Option Key
  | n + 1, ctx, .nom k =>
    match ctx k with
    | some (.struct fs _ _) => fs.findSome? fun f => firstVariant n ctx f.ty
    | some _ => some k
    | none => none
  | _, _, _ => none

/-- `VectorHoisting::run` (172-174). -/
def hoistC (addr : Ref → Comp) (n : Nat) (ctx : Ctx) (r : Ref) : Option Ctx :=
  match firstVariant n ctx r with
  | none => some ctx
  | some v => hoistLoopC addr n n ctx v

/-! ## WireLayout -/

/-- The loop over the fields (`pj/wire_layout.cpp` 24-32): fields, offset, alignment. -/
def layFields (step : Ref → Ctx → Option (Ref × Ctx)) :
    List (FieldD Ref) → Ctx → Nat → Nat → Option (List (FieldD Ref) × Nat × Nat × Ctx)
  | [], wire, off, al => some ([], off, al, wire)
  | f :: fs, wire, off, al =>
    match step f.ty wire with
    | none => none
    | some (el, wire) =>
      let o := roundUp off (refAlign wire el)
      match layFields step fs wire (o + refSize wire el) (max al (refAlign wire el)) with
      | none => none
      | some (gs, x) => some (⟨f.name, o, el⟩ :: gs, x)

/-- The loop over the terms (44-51): terms, size, alignment. -/
def layTerms (step : Ref → Ctx → Option (Ref × Ctx)) :
    List (TermD Ref Attr) → Ctx → Nat → Nat → Option (List (TermD Ref Attr) × Nat × Nat × Ctx)
  | [], wire, size, al => some ([], size, al, wire)
  | t :: ts, wire, size, al =>
    match step t.ty wire with
    | none => none
    | some (el, wire) =>
      match layTerms step ts wire (max size (refSize wire el)) (roundUp al (refAlign wire el)) with
      | none => none
      | some (us, x) => some ({ t with ty := el } :: us, x)

/-- `WireLayout::visit` (`pj/wire_layout.cpp` 7-160). -/
def layoutC (int : Ctx) : Nat → Ref → Ctx → Option (Ref × Ctx)
  | 0, _, _ => none
  | _ + 1, .int w s _, wire => some (.int w s 1, wire)
  | _ + 1, .float w _, wire => some (.float w 1, wire)
  | _ + 1, .unit, wire => some (.unit, wire)
  | n + 1, .array e len _ _, wire =>
    match layoutC int n e wire with
    | none => none
    | some (e, wire) =>
      some (.array e len (roundUp (refSize wire e) (refAlign wire e)) (refAlign wire e), wire)
  | n + 1, .vector e l, wire =>
    match layoutC int n e wire with
    | none => none
    | some (e, wire) =>
      if refSize wire e = 0 then none
      else some (.vector e (layoutVec (refSize wire e) (refAlign wire e) l), wire)
  | n + 1, .nom k, wire =>
    match int k with
    | none => none
    | some (.struct fs _ _) =>
      match layFields (layoutC int n) fs wire 0 1 with
      | none => none
      | some (fs, off, al, wire) => some (.nom k, setTypeData wire k (.struct fs off al))
    | some (.inl ts d) =>
      match layTerms (layoutC int n) ts wire 0 1, computeTagWidth (ts.map (·.tag)) with
      | some (us, size, al, wire), some w =>
        some (.nom k, setTypeData wire k (.inl us
          { dflt := d.dflt, termOff := 0, termSize := size, tagOff := roundUp (0 + size) 1, tagW := w,
            size := roundUp (0 + size) 1 + w, align := max al 1 }))
      | _, _ => none
    | some (.out ts d) =>
      match layTerms (layoutC int n) ts wire 0 1, computeTagWidth (ts.map (·.tag)) with
      | some (us, _, al, wire), some w =>
        some (.nom k, setTypeData wire k (.out us
          { dflt := d.dflt, tagW := w, tagAlign := 1, termOff := 0, termAlign := al }))
      | _, _ => none

/-! ## OutlineVariantOffsetGeneration -/

/-- `outline_` (`pj/variant_outlining.hpp`) and the types. -/
structure OffState where
  outline : Option Key
  wire : Ctx

/-- `incrementTermOffset` (`pj/variant_outlining.cpp` 58-63). -/
def incOff (s : OffState) (w : Nat) : OffState :=
  match s.outline with
  | none => s
  | some o =>
    match s.wire o with
    | some (.out ts d) => { s with wire := setTypeData s.wire o (.out ts { d with termOff := d.termOff + w }) }
    | _ => s

/-- Whether a type is an outline variant or a struct with `outline_variant` (`pj/types.cpp` 27-35). -/
def hasOutC : Nat → Ctx → Ref → Bool
  | n + 1, ctx, .nom k =>
    match ctx k with
    | some (.out _ _) => true
    | some (.struct fs _ _) => fs.any fun f => hasOutC n ctx f.ty
    | _ => false
  | _, _, _ => false

/-- The loop over the fields (80-89) with `outline_reached` and `offset`. -/
def offFields (step : Ref → OffState → OffState) :
    List (FieldD Ref) → OffState → Bool → Nat → OffState × Nat
  | [], s, _, off => (s, off)
  | f :: fs, s, reached, off =>
    if !reached && s.outline.isSome then offFields step fs (step f.ty s) true f.off
    else offFields step fs (step f.ty s) reached off

/-- `OutlineVariantOffsetGeneration::run(Type)` (65-96). -/
def runOff : Nat → Ref → OffState → OffState
  | n + 1, .nom k, s =>
    match s.wire k with
    | some (.out _ d) => incOff { s with outline := some k } d.tagW
    | some (.struct fs size _) =>
      if hasOutC (n + 1) s.wire (.nom k) then
        let x := offFields (runOff n) fs s false size
        incOff x.1 (size - x.2)
      else s
    | _ => s
  | _, _, s => s

/-- `OutlineVariantOffsetGeneration::run(Protocol&)` (98-117): types and buffer offset. -/
def genOffsetC (n : Nat) (head : Ref) (wire : Ctx) : Ctx × Nat :=
  let s := runOff n head ⟨none, wire⟩
  match s.outline with
  | none => (s.wire, 0)
  | some o =>
    let a := match s.wire o with
      | some (.out _ d) => d.termAlign
      | _ => 0
    let diff := roundUp (refSize s.wire head) a - refSize s.wire head
    ((incOff s diff).wire, diff)

/-! ## All of it -/

/-- A planned protocol: head, buffer offset, the types of its wire domain. -/
structure Planned where
  head : Ref
  bufOff : Nat
  wire : Ctx

/-- `plan_protocol` (`pj/plan.cpp` 62-107) for a type of the host, where `int` has what the internal domain has
in it at the time; with what it has in it afterwards. -/
def planC (addr : Ref → Comp) (n : Nat) (host int : Ctx) (head : Ref) (path : Path) : Option (Planned × Ctx) :=
  match convertC host n head int with
  | none => none
  | some int =>
    let x := (outlineC n int head path).getD (head, int)
    match hoistC addr n x.2 x.1 with
    | none => none
    | some int =>
      match layoutC int n x.1 (fun _ => none) with
      | none => none
      | some (head, wire) =>
        let y := genOffsetC n head wire
        some (⟨head, y.2, y.1⟩, int)

end PJ
