import Verif.Model.Reflect
import Verif.Spec.Value
/-!
# What a protocol in a context is
-/
namespace PJ

/-- The types inside a type, itself included. -/
inductive Reach (ctx : Ctx) : Ref → Ref → Prop
  | refl (r : Ref) : Reach ctx r r
  | step {r c x : Ref} (h : c ∈ kids ctx r) (t : Reach ctx c x) : Reach ctx r x

/-- Terms as `type_intern` leaves them: sorted by name, with a default. -/
def Interned (ts : List (TermD Ref Attr)) (dflt : Nat) : Prop :=
  ts.Pairwise (fun a b => Str.less (b.name.map Char.toNat) (a.name.map Char.toNat) = false) ∧
    dflt < ts.length

/-- The outermost node of a type is as the type constructors of `pj/types.hpp` make it. -/
def NodeOK (ctx : Ctx) : Ref → Prop
  | .float w _ => w = 4 ∨ w = 8
  | .nom k =>
    match k.kind, ctx k with
    | .struct, some (.struct _ _ _) => True
    | .inl, some (.inl ts d) => Interned ts d.dflt
    | .out, some (.out ts d) => Interned ts d.dflt
    | _, _ => False
  | _ => True

/-- A complete type: all nodes are well made, and it does not contain itself. -/
inductive WFRef (ctx : Ctx) : Ref → Prop
  | mk (r : Ref) (node : NodeOK ctx r) (sub : ∀ c ∈ kids ctx r, WFRef ctx c) : WFRef ctx r

/-- A type without the `wire_min_length` of its vectors. -/
def Ref.forget : Ref → Ref
  | .array e n esz al => .array e.forget n esz al
  | .vector e l => .vector e.forget { l with wireMin := 0 }
  | r => r

def Data.forget : Data → Data
  | .struct fs size al => .struct (fs.map fun f => { f with ty := f.ty.forget }) size al
  | .inl ts d => .inl (ts.map fun t => { t with ty := t.ty.forget }) d
  | .out ts d => .out (ts.map fun t => { t with ty := t.ty.forget }) d

/-! ## As trees -/

def treeFields (step : Ref → Option Ty) : List (FieldD Ref) → Option Fields
  | [] => some .nil
  | f :: fs =>
    match step f.ty, treeFields step fs with
    | some t, some r => some (.cons f.name f.off t r)
    | _, _ => none

def treeTerms (step : Ref → Option Ty) : List (TermD Ref Attr) → Option Terms
  | [] => some .nil
  | f :: fs =>
    match step f.ty, treeTerms step fs with
    | some t, some r => some (.cons f.name f.tag f.attrs t r)
    | _, _ => none

/-- The type as a tree (`Model/Ty.lean`); undefined if it is deeper than `fuel`. -/
def tree (ctx : Ctx) : Nat → Ref → Option Ty
  | 0, _ => none
  | _ + 1, .int w s al => some (.int w s al)
  | _ + 1, .float w al => some (.float w al)
  | _ + 1, .unit => some .unit
  | n + 1, .array e len esz al => (tree ctx n e).map fun t => .array t len esz al
  | n + 1, .vector e l => (tree ctx n e).map fun t => .vector t l
  | n + 1, .nom k =>
    match ctx k with
    | none => none
    | some (.struct fs size al) => (treeFields (tree ctx n) fs).map fun fs => .struct fs size al
    | some (.inl ts d) => (treeTerms (tree ctx n) ts).map fun ts => .variant ts
        { outline := false, dflt := d.dflt, termOff := d.termOff, termSize := d.termSize,
          tagOff := d.tagOff, tagW := d.tagW, size := d.size, align := d.align, termAlign := 0 }
    | some (.out ts d) => (treeTerms (tree ctx n) ts).map fun ts => .variant ts
        { outline := true, dflt := d.dflt, termOff := d.termOff, termSize := 0,
          tagOff := 0, tagW := d.tagW, size := d.tagW, align := d.tagAlign, termAlign := d.termAlign }

mutual
/-- A tree without the `wire_min_length` of its vectors. -/
def Ty.forget : Ty → Ty
  | .struct fs size al => .struct fs.forget size al
  | .variant ts l => .variant ts.forget l
  | .array e n esz al => .array e.forget n esz al
  | .vector e l => .vector e.forget { l with wireMin := 0 }
  | t => t
def Fields.forget : Fields → Fields
  | .nil => .nil
  | .cons n o t r => .cons n o t.forget r.forget
def Terms.forget : Terms → Terms
  | .nil => .nil
  | .cons n g as t r => .cons n g as t.forget r.forget
end

end PJ
