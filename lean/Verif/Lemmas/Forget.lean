import Verif.Lemmas.WireGen
import Verif.Spec.Reflect
/-!
# Codecs do not look at `wire_min_length`
-/
namespace PJ

def VecL.forget (l : VecL) : VecL := { l with wireMin := 0 }

/-- A term without the `wire_min_length` of its vectors. -/
def Term.forget (t : Term) : Term := { t with ty := t.ty.forget }

theorem forget_size (t : Ty) : t.forget.size = t.size := by cases t <;> rfl
theorem forget_align (t : Ty) : t.forget.align = t.align := by cases t <;> rfl

theorem forget_toList : ∀ ts : Terms, ts.forget.toList = ts.toList.map Term.forget
  | .nil => rfl
  | .cons n g as t r => by simp [Terms.forget, Terms.toList, forget_toList r, Term.forget]

theorem forget_find (c : Comp) : ∀ fs : Fields, fs.forget.find c = (fs.find c).map fun x => (x.1, x.2.forget)
  | .nil => rfl
  | .cons n o t r => by
    simp only [Fields.forget, Fields.find, forget_find c r]
    split <;> rfl

theorem forget_findLast (c : Comp) : ∀ fs : Fields,
    fs.forget.findLast c = (fs.findLast c).map fun x => (x.1, x.2.forget)
  | .nil => rfl
  | .cons n o t r => by
    simp only [Fields.forget, Fields.findLast, forget_findLast c r]
    cases r.findLast c with
    | some x => rfl
    | none => simp only [Option.map_none]; split <;> rfl

mutual
theorem forget_hasOut : ∀ t : Ty, t.forget.hasOut = t.hasOut
  | .struct fs _ _ => by simp only [Ty.forget, Ty.hasOut]; exact forget_hasOutFields fs
  | .variant ts l => by simp only [Ty.forget, Ty.hasOut]
  | .array e _ _ _ => by simp only [Ty.forget, Ty.hasOut]
  | .vector e _ => by simp only [Ty.forget, Ty.hasOut]
  | .int _ _ _ => rfl
  | .float _ _ => rfl
  | .unit => rfl
termination_by structural t => t
theorem forget_hasOutFields : ∀ fs : Fields, fs.forget.hasOut = fs.hasOut
  | .nil => rfl
  | .cons _ _ t r => by
    simp only [Fields.forget, Fields.hasOut, forget_hasOut t, forget_hasOutFields r]
termination_by structural fs => fs
end

theorem forget_hasName (ts : Terms) (c : Comp) : ts.forget.hasName c = ts.hasName c := by
  simp only [Terms.hasName, forget_toList, List.any_map]
  rfl

theorem forget_isEnum (ts : Terms) : ts.forget.isEnum = ts.isEnum := by
  simp only [Terms.isEnum, forget_toList, List.all_map, Function.comp_def, Term.forget, forget_size]

theorem forget_enumTy (ts : Terms) (l : VarL) : enumTy ts.forget l = enumTy ts l := by
  simp only [enumTy, forget_toList, List.map_map]
  rfl

theorem forget_enumFast_src (dts sts : Terms) (dl sl : VarL) :
    enumFast dts sts.forget dl sl = enumFast dts sts dl sl := by
  simp only [enumFast, forget_isEnum, forget_toList, List.map_map, List.length_map]
  rfl

theorem forget_enumFast_dst (dts sts : Terms) (dl sl : VarL) :
    enumFast dts.forget sts dl sl = enumFast dts sts dl sl := by
  simp only [enumFast, forget_isEnum, forget_toList, List.map_map]
  rfl

theorem selectTerm_forget (S : Mem) (sts : Terms) (sl : VarL) (path : Path) (sa : Nat) :
    selectTerm S sts.forget sl path sa = (selectTerm S sts sl path sa).map (·.map Term.forget) := by
  cases path with
  | cons c p =>
    simp only [selectTerm, forget_toList, List.find?_map, Function.comp_def]
    have : (fun x : Term => x.forget.name == c) = fun x => x.name == c := rfl
    rw [this]
    cases sts.toList.find? (fun x => x.name == c) <;> rfl
  | nil =>
    cases sts with
    | nil => rfl
    | cons n g as t r =>
      have h := matchTag_map (Option.map Term.forget)
        ((Terms.cons n g as t r).toList.map fun t => (t.tag, some t)) none (readN S (sa + sl.tagOff) sl.tagW)
      simp only [List.map_map] at h
      simp only [selectTerm]
      split
      · rename_i h'
        simp [Terms.forget] at h'
      · split
        · rfl
        · simp only [Option.map_some, Option.some.injEq]
          rw [← h, forget_toList, List.map_map]
          rfl

theorem projVec_forget : ∀ (p : Path) (t : Ty) (a : Nat),
    projVec t.forget a p = (projVec t a p).map fun x => (x.1.forget, x.2)
  | [], t, a => by cases t <;> rfl
  | [c], t, a => by cases t <;> rfl
  | c :: c' :: p, t, a => by
    cases t with
    | struct fs sz al =>
      simp only [Ty.forget, projVec, forget_find]
      cases fs.find c with
      | none => rfl
      | some x => exact projVec_forget (c' :: p) x.2 _
    | _ => rfl

theorem termCond_forget (S : Mem) (t : Ty) (a : Nat) : ∀ as : List Attr,
    termCond S t.forget a as = termCond S t a as
  | [] => rfl
  | .undef d :: r => by simp only [termCond, termCond_forget S t a r]
  | .split inl n p :: r => by
    simp only [termCond, projVec_forget, termCond_forget S t a r]
    cases projVec t a p with
    | none => rfl
    | some x => rfl

theorem szProj_forget : ∀ (p : Path) (t : Ty) (a : Nat),
    szProj t.forget a p = (szProj t a p).map fun x => (x.1.forget, x.2.1.forget, x.2.2)
  | [], t, a => by cases t <;> rfl
  | [c], t, a => by cases t <;> rfl
  | c :: c' :: p, t, a => by
    cases t with
    | struct fs sz al =>
      simp only [Ty.forget, szProj, forget_find]
      cases fs.find c with
      | none => rfl
      | some x => exact szProj_forget (c' :: p) x.2 _
    | _ => rfl

theorem xVector_forget (E : Env) (f : Nat → Nat → St → Res) (desz deal : Nat) (dl sl : VecL) :
    xVector E f desz deal dl.forget sl = xVector E f desz deal dl sl ∧
    xVector E f desz deal dl sl.forget = xVector E f desz deal dl sl := ⟨rfl, rfl⟩

/-! ## As a destination -/

mutual
theorem dflt_forget (E : Env) : ∀ (t : Ty) (hs : Handlers) (da : Nat) (st : St),
    dflt E t.forget hs da st = dflt E t hs da st
  | .int _ _ _, hs, da, st => rfl
  | .float _ _, hs, da, st => rfl
  | .unit, hs, da, st => rfl
  | .struct fs _ _, hs, da, st => by
    have h : ∀ b, dfltFields E fs.forget b hs da = dfltFields E fs b hs da := by
      intro b; funext s; exact dfltFields_forget E fs b hs da s
    simp only [Ty.forget, dflt, h]
  | .variant ts l, hs, da, st => by
    simp only [Ty.forget, dflt, dfltAt_forget E ts]
  | .array e n _ _, hs, da, st => by
    simp only [Ty.forget, dflt, dflt_forget E e]
  | .vector e l, hs, da, st => by
    simp only [Ty.forget, dflt]; rfl
termination_by structural t => t
theorem dfltFields_forget (E : Env) : ∀ (fs : Fields) (out : Bool) (hs : Handlers) (da : Nat) (st : St),
    dfltFields E fs.forget out hs da st = dfltFields E fs out hs da st
  | .nil, out, hs, da, st => rfl
  | .cons c o t r, out, hs, da, st => by
    have h : dfltFields E r.forget out hs da = dfltFields E r out hs da := by
      funext s; exact dfltFields_forget E r out hs da s
    simp only [Fields.forget, dfltFields, forget_hasOut, dflt_forget E t, h]
termination_by structural fs => fs
theorem dfltAt_forget (E : Env) : ∀ (ts : Terms) (l : VarL) (i : Nat) (hm : List (Comp × Nat)) (da : Nat) (st : St),
    dfltAt E ts.forget l i hm da st = dfltAt E ts l i hm da st
  | .nil, l, i, hm, da, st => rfl
  | .cons n g as t r, l, 0, hm, da, st => by
    simp only [Terms.forget, dfltAt, forget_size, dflt_forget E t]
  | .cons n g as t r, l, i + 1, hm, da, st => by
    simp only [Terms.forget, dfltAt]; exact dfltAt_forget E r l i hm da st
termination_by structural ts => ts
end

mutual
theorem xcode_forget (E : Env) : ∀ (t src : Ty) (path : Path) (hs : Handlers) (sa da : Nat) (st : St),
    xcode E t.forget src path hs sa da st = xcode E t src path hs sa da st
  | .unit, src, path, hs, sa, da, st => by simp only [Ty.forget]
  | .int _ _ _, src, path, hs, sa, da, st => by simp only [Ty.forget]
  | .float _ _, src, path, hs, sa, da, st => by simp only [Ty.forget]
  | .struct dfs dsz dal, src, path, hs, sa, da, st => by
    cases src with
    | struct sfs _ _ =>
      have h : ∀ b, xFields E dfs.forget b sfs path hs sa da = xFields E dfs b sfs path hs sa da := by
        intro b; funext s; exact xFields_forget E dfs b sfs path hs sa da s
      simp only [xcode, Ty.forget, h]
    | unit =>
      have := dflt_forget E (.struct dfs dsz dal) hs da st
      simp only [Ty.forget] at this
      simp only [xcode, Ty.forget, this]
    | _ => simp only [xcode, Ty.forget]
  | .variant dts dl, src, path, hs, sa, da, st => by
    cases src with
    | variant sts sl =>
      simp only [xcode, Ty.forget, forget_enumFast_dst, xEnum, forget_enumTy, forget_hasName, xAt_forget E dts,
        xNamed_forget E dts]
    | unit =>
      have := dflt_forget E (.variant dts dl) hs da st
      simp only [Ty.forget] at this
      simp only [xcode, Ty.forget, this]
    | _ => simp only [xcode, Ty.forget]
  | .array de dn dsz dal, src, path, hs, sa, da, st => by
    cases src with
    | array se _ _ _ =>
      have h : xcode E de.forget se = xcode E de se := by
        funext a b c d e; exact xcode_forget E de se a b c d e
      simp only [xcode, Ty.forget, h, dflt_forget E de]
    | unit =>
      have := dflt_forget E (.array de dn dsz dal) hs da st
      simp only [Ty.forget] at this
      simp only [xcode, Ty.forget, this]
    | _ => simp only [xcode, Ty.forget]
  | .vector de dl, src, path, hs, sa, da, st => by
    cases src with
    | vector se sl =>
      have h : xcode E de.forget se = xcode E de se := by
        funext a b c d e; exact xcode_forget E de se a b c d e
      simp only [xcode, Ty.forget, h, forget_size, forget_align]
      rfl
    | unit =>
      have := dflt_forget E (.vector de dl) hs da st
      simp only [Ty.forget] at this
      simp only [xcode, Ty.forget, this]
    | _ => simp only [xcode, Ty.forget]
termination_by structural t => t
theorem xFields_forget (E : Env) : ∀ (dfs : Fields) (out : Bool) (sfs : Fields) (path : Path) (hs : Handlers)
    (sa da : Nat) (st : St), xFields E dfs.forget out sfs path hs sa da st = xFields E dfs out sfs path hs sa da st
  | .nil, out, sfs, path, hs, sa, da, st => rfl
  | .cons c o t r, out, sfs, path, hs, sa, da, st => by
    have h : xFields E r.forget out sfs path hs sa da = xFields E r out sfs path hs sa da := by
      funext s; exact xFields_forget E r out sfs path hs sa da s
    simp only [Fields.forget, xFields, forget_hasOut, h, dflt_forget E t, xcode_forget E t]
termination_by structural dfs => dfs
theorem xNamed_forget (E : Env) : ∀ (dts : Terms) (l : VarL) (c : Comp) (sty : Ty) (sa da : Nat) (st : St),
    xNamed E dts.forget l c sty sa da st = xNamed E dts l c sty sa da st
  | .nil, l, c, sty, sa, da, st => rfl
  | .cons n g as t r, l, c, sty, sa, da, st => by
    have h : xcode E t.forget sty [] [] sa (da + l.termOff) = xcode E t sty [] [] sa (da + l.termOff) := by
      funext e; exact xcode_forget E t sty [] [] sa (da + l.termOff) e
    simp only [Terms.forget, xNamed, forget_size, xNamed_forget E r, h]
termination_by structural dts => dts
theorem xAt_forget (E : Env) : ∀ (dts : Terms) (l : VarL) (i : Nat) (sty : Ty) (hm : List (Comp × Nat))
    (sa da : Nat) (st : St), xAt E dts.forget l i sty hm sa da st = xAt E dts l i sty hm sa da st
  | .nil, l, i, sty, hm, sa, da, st => rfl
  | .cons n g as t r, l, 0, sty, hm, sa, da, st => by
    have h : xcode E t.forget sty [] [] sa (da + l.termOff) = xcode E t sty [] [] sa (da + l.termOff) := by
      funext e; exact xcode_forget E t sty [] [] sa (da + l.termOff) e
    simp only [Terms.forget, xAt, forget_size, h]
  | .cons n g as t r, l, i + 1, sty, hm, sa, da, st => by
    simp only [Terms.forget, xAt]; exact xAt_forget E r l i sty hm sa da st
termination_by structural dts => dts
end

/-! ## As a source -/

mutual
theorem xcode_forgetSrc (E : Env) : ∀ (t src : Ty) (path : Path) (hs : Handlers) (sa da : Nat) (st : St),
    xcode E t src.forget path hs sa da st = xcode E t src path hs sa da st
  | .unit, src, path, hs, sa, da, st => by simp only [xcode]
  | .int _ _ _, src, path, hs, sa, da, st => by cases src <;> simp only [xcode, Ty.forget]
  | .float _ _, src, path, hs, sa, da, st => by cases src <;> simp only [xcode, Ty.forget]
  | .struct dfs dsz dal, src, path, hs, sa, da, st => by
    cases src with
    | struct sfs _ _ =>
      simp only [xcode, Ty.forget, xFields_forgetSrc E dfs]
    | _ => simp only [xcode, Ty.forget]
  | .variant dts dl, src, path, hs, sa, da, st => by
    cases src with
    | variant sts sl =>
      simp only [xcode, Ty.forget, forget_enumFast_src, xEnum, forget_enumTy, selectTerm_forget]
      split
      · rfl
      · cases handlerMap hs with
        | none => rfl
        | some hm =>
          cases selectTerm E.S sts sl path sa with
          | none => rfl
          | some o =>
            cases o with
            | none => rfl
            | some u =>
              simp only [Option.map_some, Term.forget, xNamed_forgetSrc E dts, xAt_forgetSrc E dts]
    | _ => simp only [xcode, Ty.forget]
  | .array de _ _ _, src, path, hs, sa, da, st => by
    cases src with
    | array se _ _ _ =>
      have : xcode E de se.forget = xcode E de se := by
        funext a b c d e; exact xcode_forgetSrc E de se a b c d e
      simp only [xcode, Ty.forget, this]
    | _ => simp only [xcode, Ty.forget]
  | .vector de dl, src, path, hs, sa, da, st => by
    cases src with
    | vector se sl =>
      have : xcode E de se.forget = xcode E de se := by
        funext a b c d e; exact xcode_forgetSrc E de se a b c d e
      simp only [xcode, Ty.forget, this]
      rfl
    | _ => simp only [xcode, Ty.forget]
termination_by structural t => t
theorem xFields_forgetSrc (E : Env) : ∀ (dfs : Fields) (out : Bool) (sfs : Fields) (path : Path) (hs : Handlers)
    (sa da : Nat), xFields E dfs out sfs.forget path hs sa da = xFields E dfs out sfs path hs sa da
  | .nil, out, sfs, path, hs, sa, da => by funext st; simp only [xFields]
  | .cons c o t r, out, sfs, path, hs, sa, da => by
    funext st
    simp only [xFields, forget_findLast, xFields_forgetSrc E r out sfs path hs sa da]
    congr 1
    split
    · cases sfs.findLast c with
      | none => rfl
      | some x => exact xcode_forgetSrc E t x.2 _ _ _ _ st
    · rfl
termination_by structural dfs => dfs
theorem xNamed_forgetSrc (E : Env) : ∀ (dts : Terms) (l : VarL) (c : Comp) (sty : Ty) (sa da : Nat) (st : St),
    xNamed E dts l c sty.forget sa da st = xNamed E dts l c sty sa da st
  | .nil, l, c, sty, sa, da, st => by simp only [xNamed]
  | .cons n g as t r, l, c, sty, sa, da, st => by
    have h : xcode E t sty.forget [] [] sa (da + l.termOff) = xcode E t sty [] [] sa (da + l.termOff) := by
      funext e; exact xcode_forgetSrc E t sty [] [] sa (da + l.termOff) e
    simp only [xNamed, termCond_forget, xNamed_forgetSrc E r, h]
termination_by structural dts => dts
theorem xAt_forgetSrc (E : Env) : ∀ (dts : Terms) (l : VarL) (i : Nat) (sty : Ty) (hm : List (Comp × Nat))
    (sa da : Nat) (st : St), xAt E dts l i sty.forget hm sa da st = xAt E dts l i sty hm sa da st
  | .nil, l, i, sty, hm, sa, da, st => by simp only [xAt]
  | .cons n g as t r, l, 0, sty, hm, sa, da, st => by
    have h : xcode E t sty.forget [] [] sa (da + l.termOff) = xcode E t sty [] [] sa (da + l.termOff) := by
      funext e; exact xcode_forgetSrc E t sty [] [] sa (da + l.termOff) e
    simp only [xAt, termCond_forget, h]
  | .cons n g as t r, l, i + 1, sty, hm, sa, da, st => by
    simp only [xAt]; exact xAt_forgetSrc E r l i sty hm sa da st
termination_by structural dts => dts
end

/-! ## Size functions -/

mutual
theorem szX_forget (ru : Bool) (S : Mem) : ∀ (t src : Ty) (path : Path) (sa c : Nat),
    szX ru S t.forget src path sa c = szX ru S t src path sa c
  | .unit, src, path, sa, c => by simp only [Ty.forget]
  | .int _ _ _, src, path, sa, c => by simp only [Ty.forget]
  | .float _ _, src, path, sa, c => by simp only [Ty.forget]
  | .struct dfs dsz dal, src, path, sa, c => by
    cases src with
    | struct sfs _ _ =>
      have h : ∀ b, szFields ru S dfs.forget b sfs path sa = szFields ru S dfs b sfs path sa := by
        intro b; funext s; exact szFields_forget ru S dfs b sfs path sa s
      simp only [szX, Ty.forget, h]
    | _ => simp only [szX, Ty.forget]
  | .variant dts dl, src, path, sa, c => by
    cases src with
    | variant sts sl =>
      simp only [szX, Ty.forget, forget_enumFast_dst, forget_hasName, szAt_forget ru S dts, szNamed_forget ru S dts]
    | _ => simp only [szX, Ty.forget]
  | .array de dn dsz dal, src, path, sa, c => by
    cases src with
    | array se _ _ _ =>
      have h : szX ru S de.forget se = szX ru S de se := by
        funext a b c; exact szX_forget ru S de se a b c
      simp only [szX, Ty.forget, h]
    | _ => simp only [szX, Ty.forget]
  | .vector de dl, src, path, sa, c => by
    cases src with
    | vector se sl =>
      have h : szX ru S de.forget se = szX ru S de se := by
        funext a b c; exact szX_forget ru S de se a b c
      simp only [szX, Ty.forget, h, forget_align]
      rfl
    | _ => simp only [szX, Ty.forget]
termination_by structural t => t
theorem szFields_forget (ru : Bool) (S : Mem) : ∀ (dfs : Fields) (out : Bool) (sfs : Fields) (path : Path)
    (sa c : Nat), szFields ru S dfs.forget out sfs path sa c = szFields ru S dfs out sfs path sa c
  | .nil, out, sfs, path, sa, c => rfl
  | .cons n o t r, out, sfs, path, sa, c => by
    have h : szFields ru S r.forget out sfs path sa = szFields ru S r out sfs path sa := by
      funext s; exact szFields_forget ru S r out sfs path sa s
    simp only [Fields.forget, szFields, forget_hasOut, h, szX_forget ru S t]
termination_by structural dfs => dfs
theorem szNamed_forget (ru : Bool) (S : Mem) : ∀ (dts : Terms) (l : VarL) (nm : Comp) (sty : Ty) (sa c : Nat),
    szNamed ru S dts.forget l nm sty sa c = szNamed ru S dts l nm sty sa c
  | .nil, l, nm, sty, sa, c => rfl
  | .cons n g as t r, l, nm, sty, sa, c => by
    simp only [Terms.forget, szNamed, forget_size, szNamed_forget ru S r, szX_forget ru S t]
termination_by structural dts => dts
theorem szAt_forget (ru : Bool) (S : Mem) : ∀ (dts : Terms) (l : VarL) (i : Nat) (sty : Ty) (sa c : Nat),
    szAt ru S dts.forget l i sty sa c = szAt ru S dts l i sty sa c
  | .nil, l, i, sty, sa, c => rfl
  | .cons n g as t r, l, 0, sty, sa, c => by
    simp only [Terms.forget, szAt, forget_size, szX_forget ru S t]
  | .cons n g as t r, l, i + 1, sty, sa, c => by
    simp only [Terms.forget, szAt]; exact szAt_forget ru S r l i sty sa c
termination_by structural dts => dts
end

/-- A protocol that has been transported. -/
def Proto.forget (p : Proto) : Proto := { p with head := p.head.forget }

theorem encode_forget (E : Env) (host : Ty) (p : Proto) (path : Path) (obj buf : Nat) (mem : Mem) :
    encode E host p.forget path obj buf mem = encode E host p path obj buf mem := by
  simp only [encode, Proto.forget, xcode_forget, forget_size]

theorem decode_forget (E : Env) (p : Proto) (host : Ty) (hs : Handlers) (msg obj buf cap : Nat) (mem : Mem) :
    decode E p.forget host hs msg obj buf cap mem = decode E p host hs msg obj buf cap mem := by
  simp only [decode, Proto.forget, xcode_forgetSrc]

theorem sizeFn_forget (ru : Bool) (S : Mem) (host : Ty) (p : Proto) (path : Path) (obj : Nat) :
    sizeFn ru S host p.forget path obj = sizeFn ru S host p path obj := by
  simp only [sizeFn, Proto.forget, szX_forget, forget_size]

mutual
theorem forget_forget : ∀ t : Ty, t.forget.forget = t.forget
  | .struct fs _ _ => by simp only [Ty.forget, forget_forgetF fs]
  | .variant ts _ => by simp only [Ty.forget, forget_forgetT ts]
  | .array e _ _ _ => by simp only [Ty.forget, forget_forget e]
  | .vector e _ => by simp only [Ty.forget, forget_forget e]
  | .int _ _ _ => rfl
  | .float _ _ => rfl
  | .unit => rfl
theorem forget_forgetF : ∀ fs : Fields, fs.forget.forget = fs.forget
  | .nil => rfl
  | .cons _ _ t r => by simp only [Fields.forget, forget_forget t, forget_forgetF r]
theorem forget_forgetT : ∀ ts : Terms, ts.forget.forget = ts.forget
  | .nil => rfl
  | .cons _ _ _ t r => by simp only [Terms.forget, forget_forget t, forget_forgetT r]
end

theorem Proto.forget_forget (p : Proto) : p.forget.forget = p.forget := by
  simp only [Proto.forget, PJ.forget_forget]

end PJ
