import Verif.Lemmas.Run
/-!
# Sample types and memories

Used by the `example`s which show that the hypotheses of the theorems can be met.
-/
namespace PJ.Sample

def u8 : Ty := .int 1 .unsigned 1
def i32 : Ty := .int 4 .signed 4
def i64w : Ty := .int 8 .signed 1

/-- A host vector: pointer at 0, 8 byte length at 8. -/
def hostL : VecL :=
  { minLen := 0, maxLen := none, wireMin := 0, ppl := 0, lenOff := 8, lenSize := 8, refOff := 0,
    refSize := 8, mode := .pointer, inlOff := 0, parOff := 0, elemW := 1, size := 16, align := 8 }

/-- A wire vector: 8 byte length, self-relative offset. -/
def wireL : VecL :=
  { minLen := 0, maxLen := none, wireMin := 0, ppl := 0, lenOff := 0, lenSize := 8, refOff := 8,
    refSize := 8, mode := .offset, inlOff := 8, parOff := 16, elemW := 1, size := 16, align := 1 }

def nm (s : String) : Comp := s.toList

/-- Host variant `{ p : u8 = 1, q : i32 = 2 }`, default `p`. -/
def hostV : Ty :=
  .variant (.cons (nm "p") 1 [] u8 (.cons (nm "q") 2 [] i32 .nil))
    { outline := false, dflt := 0, termOff := 0, termSize := 4, tagOff := 4, tagW := 1, size := 8,
      align := 4, termAlign := 4 }

/-- Wire variant with the terms in another order, with other tags, `p` missing and default `r`. -/
def wireV : Ty :=
  .variant (.cons (nm "q") 7 [] i64w (.cons (nm "r") 9 [] .unit .nil))
    { outline := false, dflt := 1, termOff := 1, termSize := 8, tagOff := 0, tagW := 1, size := 9,
      align := 1, termAlign := 1 }

/-- Host struct `{ x : i32, ys : u8[], v : hostV, gone : u8 }`. -/
def hostS : Ty :=
  .struct (.cons (nm "x") 0 i32 (.cons (nm "ys") 8 (.vector u8 hostL)
    (.cons (nm "v") 24 hostV (.cons (nm "gone") 32 u8 .nil)))) 40 8

/-- Wire struct `{ v : wireV, ys : u8[], fresh : u8, x : i64 }`. -/
def wireS : Ty :=
  .struct (.cons (nm "v") 0 wireV (.cons (nm "ys") 9 (.vector u8 wireL)
    (.cons (nm "fresh") 25 u8 (.cons (nm "x") 26 i64w .nil)))) 34 1

/-- The object `{ x = -2, ys = [5, 6, 7], v = q(300), gone = 9 }` at address 1000. -/
def mem0 : Mem := fun a =>
  if 1000 ≤ a then
    (([0xfe, 0xff, 0xff, 0xff, 0, 0, 0, 0,
       0x4c, 0x04, 0, 0, 0, 0, 0, 0, 3, 0, 0, 0, 0, 0, 0, 0,
       44, 1, 0, 0, 2, 0, 0, 0, 9] ++ List.replicate 67 0 ++ [5, 6, 7] : List UInt8)[a - 1000]?).getD 0
  else 0

def env0 : Env := { S := mem0, J := fun _ => 0xcc, fconv := fun _ _ b => b }

def val0 : Val :=
  .struct [(nm "x", .int (-2)), (nm "ys", .vec [.int 5, .int 6, .int 7]),
    (nm "v", .variant (nm "q") (.int 300)), (nm "gone", .int 9)]

def wval0 : Val :=
  .struct [(nm "v", .variant (nm "q") (.int 300)), (nm "ys", .vec [.int 5, .int 6, .int 7]),
    (nm "fresh", .int 0), (nm "x", .int (-2))]

theorem hostL_ok : VecLayout hostL 1 1 := by
  constructor <;> simp [hostL, Disj, VecL.canOut]

theorem wireL_ok : VecLayout wireL 1 1 := by
  constructor <;> simp [wireL, Disj, VecL.canOut]

theorem hostV_wf : WF hostV := by
  simp only [hostV, WF, WFTerms, u8, i32, Terms.toList]
  refine ⟨by simp, ?_⟩
  constructor <;> simp [Ty.size, Disj]

theorem wireV_wf : WF wireV := by
  simp only [wireV, WF, WFTerms, i64w, Terms.toList]
  refine ⟨by simp, ?_⟩
  constructor <;> simp [Ty.size, Disj]

theorem hostS_wf : WF hostS := by
  simp only [hostS, WF, WFFields]
  refine ⟨⟨by simp [i32, WF], ⟨by simp [u8, WF], hostL_ok⟩, hostV_wf, by simp [u8, WF], trivial⟩, ?_⟩
  constructor <;> simp [Fields.toList, Ty.size, u8, i32, hostV, hostL, Disj, nm]

theorem wireS_wf : WF wireS := by
  simp only [wireS, WF, WFFields]
  refine ⟨⟨wireV_wf, ⟨by simp [u8, WF], wireL_ok⟩, by simp [u8, WF], by simp [i64w, WF], trivial⟩, ?_⟩
  constructor <;> simp [Fields.toList, Ty.size, u8, i64w, wireV, wireL, Disj, nm]

theorem wire_host_compat : Compat wireS hostS := by
  simp [wireS, hostS, Compat, CompatFields, Fields.findLast, nm, wireV, hostV, u8, i32, i64w,
    VecCompat, hostL, wireL, VecL.maxBound, enumFast, Terms.isEnum, Terms.toList, Ty.size,
    Terms.hasName, CompatNamed, CompatAt, Ty.hasOut]

theorem host_wire_compat : Compat hostS wireS := by
  simp [wireS, hostS, Compat, CompatFields, Fields.findLast, nm, wireV, hostV, u8, i32, i64w,
    VecCompat, hostL, wireL, VecL.maxBound, enumFast, Terms.isEnum, Terms.toList, Ty.size,
    Terms.hasName, CompatNamed, CompatAt, Ty.hasOut]

theorem hostS_noOut : hostS.noOut := by
  simp [hostS, Ty.noOut, Fields.noOut, Terms.noOut, hostV, i32, u8]

theorem wireS_noOut : wireS.noOut := by
  simp [wireS, Ty.noOut, Fields.noOut, Terms.noOut, wireV, i64w, u8]

theorem wireS_reloc : wireS.reloc := by
  simp [wireS, Ty.reloc, Fields.reloc, Terms.reloc, wireV, i64w, u8, wireL]

theorem read0 : readVal env0.S hostS 1000 = some val0 := rfl

theorem conv0 : conv env0.fconv wireS val0 = some wval0 := rfl

def proto0 : Proto := { head := wireS, bufOff := 0 }

theorem proto0_ok : proto0.OK :=
  ⟨wireS_wf, wireS_reloc, fun _ => noOut_outAt _ _ _ wireS_noOut⟩

end PJ.Sample
