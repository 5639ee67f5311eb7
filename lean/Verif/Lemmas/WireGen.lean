import Verif.Model.WireGen
import Verif.Spec.WireGen
import Verif.Lemmas.PlanOut
import Verif.Lemmas.PlanDef
import Verif.Lemmas.AnyType
import Verif.Lemmas.Run
/-!
# Types rebuilt by generated code
-/
namespace PJ

/-! ## Shape of `dropAttrs` -/

theorem dropAttrs_size (t : Ty) : t.dropAttrs.size = t.size := by cases t <;> rfl
theorem dropAttrs_align (t : Ty) : t.dropAttrs.align = t.align := by cases t <;> rfl

theorem dropAttrs_toList : ∀ ts : Terms, ts.dropAttrs.toList = ts.toList.map Term.dropAttrs
  | .nil => rfl
  | .cons n g as t r => by simp [Terms.dropAttrs, Terms.toList, dropAttrs_toList r, Term.dropAttrs]

theorem dropAttrs_fieldsToList : ∀ fs : Fields,
    fs.dropAttrs.toList = fs.toList.map fun x => (x.1, x.2.1, x.2.2.dropAttrs)
  | .nil => rfl
  | .cons n o t r => by simp [Fields.dropAttrs, Fields.toList, dropAttrs_fieldsToList r]

theorem dropAttrs_find (c : Comp) : ∀ fs : Fields,
    fs.dropAttrs.find c = (fs.find c).map fun x => (x.1, x.2.dropAttrs)
  | .nil => rfl
  | .cons n o t r => by
    simp only [Fields.dropAttrs, Fields.find, dropAttrs_find c r]
    split <;> rfl

theorem dropAttrs_findLast (c : Comp) : ∀ fs : Fields,
    fs.dropAttrs.findLast c = (fs.findLast c).map fun x => (x.1, x.2.dropAttrs)
  | .nil => rfl
  | .cons n o t r => by
    simp only [Fields.dropAttrs, Fields.findLast, dropAttrs_findLast c r]
    cases r.findLast c with
    | some x => rfl
    | none => simp only [Option.map_none]; split <;> rfl

mutual
theorem dropAttrs_hasOut : ∀ t : Ty, t.dropAttrs.hasOut = t.hasOut
  | .struct fs _ _ => by simp only [Ty.dropAttrs, Ty.hasOut]; exact dropAttrs_hasOutFields fs
  | .variant ts l => by simp only [Ty.dropAttrs, Ty.hasOut]
  | .array e _ _ _ => by simp only [Ty.dropAttrs, Ty.hasOut]
  | .vector e _ => by simp only [Ty.dropAttrs, Ty.hasOut]
  | .int _ _ _ => rfl
  | .float _ _ => rfl
  | .unit => rfl
termination_by structural t => t
theorem dropAttrs_hasOutFields : ∀ fs : Fields, fs.dropAttrs.hasOut = fs.hasOut
  | .nil => rfl
  | .cons _ _ t r => by
    simp only [Fields.dropAttrs, Fields.hasOut, dropAttrs_hasOut t, dropAttrs_hasOutFields r]
termination_by structural fs => fs
end

theorem dropAttrs_hasName (ts : Terms) (c : Comp) : ts.dropAttrs.hasName c = ts.hasName c := by
  simp only [Terms.hasName, dropAttrs_toList, List.any_map]
  rfl

theorem dropAttrs_isEnum (ts : Terms) : ts.dropAttrs.isEnum = ts.isEnum := by
  simp only [Terms.isEnum, dropAttrs_toList, List.all_map, Function.comp_def, Term.dropAttrs, dropAttrs_size]

theorem dropAttrs_enumTy (ts : Terms) (l : VarL) : enumTy ts.dropAttrs l = enumTy ts l := by
  simp only [enumTy, dropAttrs_toList, List.map_map]
  rfl

theorem dropAttrs_enumFast_src (dts sts : Terms) (dl sl : VarL) :
    enumFast dts sts.dropAttrs dl sl = enumFast dts sts dl sl := by
  simp only [enumFast, dropAttrs_isEnum, dropAttrs_toList, List.map_map, List.length_map]
  rfl

theorem dropAttrs_enumFast_dst (dts sts : Terms) (dl sl : VarL) :
    enumFast dts.dropAttrs sts dl sl = enumFast dts sts dl sl := by
  simp only [enumFast, dropAttrs_isEnum, dropAttrs_toList, List.map_map]
  rfl

/-! ## As a source -/

theorem switchOn_map {β γ} (f : β → γ) (tag : Nat) (d : β) : ∀ (vs : List Nat) (bs : List β),
    switchOn tag (f d) vs (bs.map f) = f (switchOn tag d vs bs)
  | [], _ => by simp [switchOn]
  | _ :: _, [] => by simp [switchOn]
  | v :: vs, b :: bs => by
    simp only [List.map_cons, switchOn]
    split
    · rfl
    · exact switchOn_map f tag d vs bs

theorem matchTag_map {β γ} (f : β → γ) (l : List (Nat × β)) (d : β) (tag : Nat) :
    matchTag (l.map fun x => (x.1, f x.2)) (f d) tag = f (matchTag l d tag) := by
  unfold matchTag
  have h1 : matchCaseVals (l.map fun x => (x.1, f x.2)) = matchCaseVals l := by
    simp only [matchCaseVals, List.map_map]; rfl
  have h2 : (matchBlocks (l.map fun x => (x.1, f x.2))).map (·.2) = ((matchBlocks l).map (·.2)).map f := by
    unfold matchBlocks
    rw [← sortBy_map (fun x : Nat × β => (x.1, f x.2)) (fun t => toSigned 8 t.1) (fun t => toSigned 8 t.1) l
      (fun _ _ _ _ => Iff.rfl)]
    simp only [List.map_map]; rfl
  rw [h1, h2, switchOn_map]

theorem selectTerm_dropAttrs (S : Mem) (sts : Terms) (sl : VarL) (path : Path) (sa : Nat) :
    selectTerm S sts.dropAttrs sl path sa = (selectTerm S sts sl path sa).map (·.map Term.dropAttrs) := by
  cases path with
  | cons c p =>
    simp only [selectTerm, dropAttrs_toList, List.find?_map, Function.comp_def]
    have : (fun x : Term => x.dropAttrs.name == c) = fun x => x.name == c := rfl
    rw [this]
    cases sts.toList.find? (fun x => x.name == c) <;> rfl
  | nil =>
    cases sts with
    | nil => rfl
    | cons n g as t r =>
      have h := matchTag_map (Option.map Term.dropAttrs)
        ((Terms.cons n g as t r).toList.map fun t => (t.tag, some t)) none (readN S (sa + sl.tagOff) sl.tagW)
      simp only [List.map_map] at h
      simp only [selectTerm]
      split
      · rename_i h'
        simp [Terms.dropAttrs] at h'
      · split
        · rfl
        · simp only [Option.map_some, Option.some.injEq]
          rw [← h, dropAttrs_toList, List.map_map]
          rfl

theorem projVec_dropAttrs : ∀ (p : Path) (t : Ty) (a : Nat), projVec t.dropAttrs a p = projVec t a p
  | [], t, a => by cases t <;> rfl
  | [c], t, a => by cases t <;> rfl
  | c :: c' :: p, t, a => by
    cases t with
    | struct fs sz al =>
      simp only [Ty.dropAttrs, projVec, dropAttrs_find]
      cases fs.find c with
      | none => rfl
      | some x => exact projVec_dropAttrs (c' :: p) x.2 _
    | _ => rfl

theorem termCond_dropAttrs (S : Mem) (t : Ty) (a : Nat) : ∀ as : List Attr,
    termCond S t.dropAttrs a as = termCond S t a as
  | [] => rfl
  | .undef d :: r => by simp only [termCond, termCond_dropAttrs S t a r]
  | .split inl n p :: r => by simp only [termCond, projVec_dropAttrs, termCond_dropAttrs S t a r]

mutual
/-- Attributes of the source are never looked at. -/
theorem xcode_dropSrc (E : Env) : ∀ (t src : Ty) (path : Path) (hs : Handlers) (sa da : Nat) (st : St),
    xcode E t src.dropAttrs path hs sa da st = xcode E t src path hs sa da st
  | .unit, src, path, hs, sa, da, st => by simp only [xcode]
  | .int _ _ _, src, path, hs, sa, da, st => by cases src <;> simp only [xcode, Ty.dropAttrs]
  | .float _ _, src, path, hs, sa, da, st => by cases src <;> simp only [xcode, Ty.dropAttrs]
  | .struct dfs dsz dal, src, path, hs, sa, da, st => by
    cases src with
    | struct sfs _ _ =>
      simp only [xcode, Ty.dropAttrs, xFields_dropSrc E dfs]
    | _ => simp only [xcode, Ty.dropAttrs]
  | .variant dts dl, src, path, hs, sa, da, st => by
    cases src with
    | variant sts sl =>
      simp only [xcode, Ty.dropAttrs, dropAttrs_enumFast_src, xEnum, dropAttrs_enumTy, selectTerm_dropAttrs]
      split
      · rfl
      · cases handlerMap hs with
        | none => rfl
        | some hm =>
          cases selectTerm E.S sts sl path sa with
          | none => rfl
          | some o =>
            cases o with
            | none => rfl
            | some u =>
              simp only [Option.map_some, Term.dropAttrs, xNamed_dropSrc E dts, xAt_dropSrc E dts]
    | _ => simp only [xcode, Ty.dropAttrs]
  | .array de _ _ _, src, path, hs, sa, da, st => by
    cases src with
    | array se _ _ _ =>
      have := fun path hs sa da st => xcode_dropSrc E de se path hs sa da st
      have : xcode E de se.dropAttrs = xcode E de se := by
        funext a b c d e; exact xcode_dropSrc E de se a b c d e
      simp only [xcode, Ty.dropAttrs, this]
    | _ => simp only [xcode, Ty.dropAttrs]
  | .vector de dl, src, path, hs, sa, da, st => by
    cases src with
    | vector se sl =>
      have : xcode E de se.dropAttrs = xcode E de se := by
        funext a b c d e; exact xcode_dropSrc E de se a b c d e
      simp only [xcode, Ty.dropAttrs, this]
    | _ => simp only [xcode, Ty.dropAttrs]
termination_by structural t => t
theorem xFields_dropSrc (E : Env) : ∀ (dfs : Fields) (out : Bool) (sfs : Fields) (path : Path) (hs : Handlers)
    (sa da : Nat), xFields E dfs out sfs.dropAttrs path hs sa da = xFields E dfs out sfs path hs sa da
  | .nil, out, sfs, path, hs, sa, da => by funext st; simp only [xFields]
  | .cons c o t r, out, sfs, path, hs, sa, da => by
    funext st
    simp only [xFields, dropAttrs_findLast, xFields_dropSrc E r out sfs path hs sa da]
    congr 1
    split
    · cases sfs.findLast c with
      | none => rfl
      | some x => exact xcode_dropSrc E t x.2 _ _ _ _ st
    · rfl
termination_by structural dfs => dfs
theorem xNamed_dropSrc (E : Env) : ∀ (dts : Terms) (l : VarL) (c : Comp) (sty : Ty) (sa da : Nat) (st : St),
    xNamed E dts l c sty.dropAttrs sa da st = xNamed E dts l c sty sa da st
  | .nil, l, c, sty, sa, da, st => by simp only [xNamed]
  | .cons n g as t r, l, c, sty, sa, da, st => by
    have h : xcode E t sty.dropAttrs [] [] sa (da + l.termOff) = xcode E t sty [] [] sa (da + l.termOff) := by
      funext e; exact xcode_dropSrc E t sty [] [] sa (da + l.termOff) e
    simp only [xNamed, termCond_dropAttrs, xNamed_dropSrc E r, h]
termination_by structural dts => dts
theorem xAt_dropSrc (E : Env) : ∀ (dts : Terms) (l : VarL) (i : Nat) (sty : Ty) (hm : List (Comp × Nat))
    (sa da : Nat) (st : St), xAt E dts l i sty.dropAttrs hm sa da st = xAt E dts l i sty hm sa da st
  | .nil, l, i, sty, hm, sa, da, st => by simp only [xAt]
  | .cons n g as t r, l, 0, sty, hm, sa, da, st => by
    have h : xcode E t sty.dropAttrs [] [] sa (da + l.termOff) = xcode E t sty [] [] sa (da + l.termOff) := by
      funext e; exact xcode_dropSrc E t sty [] [] sa (da + l.termOff) e
    simp only [xAt, termCond_dropAttrs, h]
  | .cons n g as t r, l, i + 1, sty, hm, sa, da, st => by
    simp only [xAt]; exact xAt_dropSrc E r l i sty hm sa da st
termination_by structural dts => dts
end

mutual
theorem readVal_dropAttrs (m : Mem) : ∀ (t : Ty) (a : Nat), readVal m t.dropAttrs a = readVal m t a
  | .int _ _ _, _ => rfl
  | .float _ _, _ => rfl
  | .unit, _ => rfl
  | .struct fs _ _, a => by simp only [Ty.dropAttrs, readVal, readFields_dropAttrs m fs]
  | .variant ts l, a => by simp only [Ty.dropAttrs, readVal, readTerm_dropAttrs m ts]
  | .array e n _ _, a => by
    have h : readVal m e.dropAttrs = readVal m e := by funext a; exact readVal_dropAttrs m e a
    simp only [Ty.dropAttrs, readVal, h]
  | .vector e l, a => by
    have h : readVal m e.dropAttrs = readVal m e := by funext a; exact readVal_dropAttrs m e a
    simp only [Ty.dropAttrs, readVal, h]
termination_by structural t => t
theorem readFields_dropAttrs (m : Mem) : ∀ (fs : Fields) (a : Nat), readFields m fs.dropAttrs a = readFields m fs a
  | .nil, _ => rfl
  | .cons c o t r, a => by
    simp only [Fields.dropAttrs, readFields, readVal_dropAttrs m t, readFields_dropAttrs m r]
termination_by structural fs => fs
theorem readTerm_dropAttrs (m : Mem) : ∀ (ts : Terms) (raw a : Nat),
    readTerm m ts.dropAttrs raw a = readTerm m ts raw a
  | .nil, _, _ => rfl
  | .cons n g as t r, raw, a => by
    simp only [Terms.dropAttrs, readTerm, readVal_dropAttrs m t, readTerm_dropAttrs m r]
termination_by structural ts => ts
end

/-! ## Layout -/

mutual
theorem WF_dropAttrs : ∀ t : Ty, WF t → WF t.dropAttrs
  | .int _ _ _, h => h
  | .float _ _, h => h
  | .unit, h => h
  | .struct fs sz _, h => by
    refine ⟨WFFields_dropAttrs fs h.1, ?_⟩
    obtain ⟨h1, h2, h3⟩ := h.2
    rw [dropAttrs_fieldsToList]
    refine ⟨fun x hx => ?_, ?_, ?_⟩
    · obtain ⟨y, hy, rfl⟩ := List.mem_map.1 hx
      simpa only [dropAttrs_size] using h1 y hy
    · rw [List.pairwise_map]
      simpa only [dropAttrs_size] using h2
    · rw [List.map_map]; exact h3
  | .variant ts l, h => by
    refine ⟨WFTerms_dropAttrs ts h.1, ?_⟩
    obtain ⟨h1, h2, h3, h4, h5, h6, h7⟩ := h.2
    rw [dropAttrs_toList]
    refine ⟨h1, ?_, ?_, ?_, h5, ?_, ?_⟩
    · rw [List.map_map]; exact h2
    · intro t ht; obtain ⟨u, hu, rfl⟩ := List.mem_map.1 ht; exact h3 u hu
    · rw [List.length_map]; exact h4
    · intro ho t ht; obtain ⟨u, hu, rfl⟩ := List.mem_map.1 ht
      simpa only [Term.dropAttrs, dropAttrs_size] using h6 ho u hu
    · intro ho t ht; obtain ⟨u, hu, rfl⟩ := List.mem_map.1 ht
      simpa only [Term.dropAttrs, dropAttrs_size] using h7 ho u hu
  | .array e _ _ _, h => ⟨WF_dropAttrs e h.1, by rw [dropAttrs_size]; exact h.2⟩
  | .vector e l, h => ⟨WF_dropAttrs e h.1, by rw [dropAttrs_size, dropAttrs_align]; exact h.2⟩
termination_by structural t => t
theorem WFFields_dropAttrs : ∀ fs : Fields, WFFields fs → WFFields fs.dropAttrs
  | .nil, h => h
  | .cons _ _ t r, h => ⟨WF_dropAttrs t h.1, WFFields_dropAttrs r h.2⟩
termination_by structural fs => fs
theorem WFTerms_dropAttrs : ∀ ts : Terms, WFTerms ts → WFTerms ts.dropAttrs
  | .nil, h => h
  | .cons _ _ _ t r, h => ⟨WF_dropAttrs t h.1, WFTerms_dropAttrs r h.2⟩
termination_by structural ts => ts
end

mutual
theorem reloc_dropAttrs : ∀ t : Ty, t.reloc → t.dropAttrs.reloc
  | .int _ _ _, h => h
  | .float _ _, h => h
  | .unit, h => h
  | .struct fs _ _, h => relocFields_dropAttrs fs h
  | .variant ts _, h => relocTerms_dropAttrs ts h
  | .array e _ _ _, h => reloc_dropAttrs e h
  | .vector e _, h => ⟨reloc_dropAttrs e h.1, h.2⟩
termination_by structural t => t
theorem relocFields_dropAttrs : ∀ fs : Fields, fs.reloc → fs.dropAttrs.reloc
  | .nil, h => h
  | .cons _ _ t r, h => ⟨reloc_dropAttrs t h.1, relocFields_dropAttrs r h.2⟩
termination_by structural fs => fs
theorem relocTerms_dropAttrs : ∀ ts : Terms, ts.reloc → ts.dropAttrs.reloc
  | .nil, h => h
  | .cons _ _ _ t r, h => ⟨reloc_dropAttrs t h.1, relocTerms_dropAttrs r h.2⟩
termination_by structural ts => ts
end

mutual
theorem noOut_dropAttrs : ∀ t : Ty, t.noOut → t.dropAttrs.noOut
  | .int _ _ _, h => h
  | .float _ _, h => h
  | .unit, h => h
  | .struct fs _ _, h => noOutFields_dropAttrs fs h
  | .variant ts _, h => ⟨h.1, noOutTerms_dropAttrs ts h.2⟩
  | .array e _ _ _, h => noOut_dropAttrs e h
  | .vector e _, h => noOut_dropAttrs e h
termination_by structural t => t
theorem noOutFields_dropAttrs : ∀ fs : Fields, fs.noOut → fs.dropAttrs.noOut
  | .nil, h => h
  | .cons _ _ t r, h => ⟨noOut_dropAttrs t h.1, noOutFields_dropAttrs r h.2⟩
termination_by structural fs => fs
theorem noOutTerms_dropAttrs : ∀ ts : Terms, ts.noOut → ts.dropAttrs.noOut
  | .nil, h => h
  | .cons _ _ _ t r, h => ⟨noOut_dropAttrs t h.1, noOutTerms_dropAttrs r h.2⟩
termination_by structural ts => ts
end

mutual
theorem OutAt_dropAttrs : ∀ (t : Ty) (da ptr : Nat), OutAt t da ptr → OutAt t.dropAttrs da ptr
  | .int _ _ _, _, _, h => h
  | .float _ _, _, _, h => h
  | .unit, _, _, h => h
  | .struct fs _ _, da, ptr, h => OutAtFields_dropAttrs fs da ptr h
  | .variant ts _, _, _, h => ⟨h.1, noOutTerms_dropAttrs ts h.2⟩
  | .array e _ _ _, _, _, h => noOut_dropAttrs e h
  | .vector e _, _, _, h => noOut_dropAttrs e h
termination_by structural t => t
theorem OutAtFields_dropAttrs : ∀ (fs : Fields) (da ptr : Nat), OutAtFields fs da ptr →
    OutAtFields fs.dropAttrs da ptr
  | .nil, _, _, h => h
  | .cons _ o t r, da, ptr, h => by
    simp only [Fields.dropAttrs, OutAtFields, dropAttrs_hasOut, dropAttrs_hasOutFields] at h ⊢
    refine ⟨?_, OutAtFields_dropAttrs r da ptr h.2⟩
    split
    · rename_i hc
      rw [if_pos hc] at h
      exact ⟨OutAt_dropAttrs t _ ptr h.1.1, h.1.2⟩
    · rename_i hc
      rw [if_neg hc] at h
      exact noOut_dropAttrs t h.1
termination_by structural fs => fs
end

theorem ProtoOK_dropAttrs (p : Proto) (h : p.OK) : (Proto.mk p.head.dropAttrs p.bufOff).OK :=
  ⟨WF_dropAttrs _ h.wf, reloc_dropAttrs _ h.reloc, fun buf => by
    have := OutAt_dropAttrs _ _ _ (h.out buf)
    simpa only [dropAttrs_size] using this⟩

theorem EnumCompat_drop {dts sts : Terms} {dl sl : VarL} (h : EnumCompat dts sts dl sl) :
    EnumCompat dts.dropAttrs sts dl sl ∧ EnumCompat dts sts.dropAttrs dl sl := by
  unfold EnumCompat at *
  simp only [dropAttrs_enumTy, dropAttrs_toList, List.map_map, List.getElem?_map, Option.map_map]
  exact ⟨h, h⟩

mutual
theorem Compat_dropSrc : ∀ (t src : Ty), Compat t src → Compat t src.dropAttrs
  | .struct dfs _ _, src, h => by
    cases src with
    | struct sfs _ _ => simp only [Compat, Ty.dropAttrs] at h ⊢; exact CompatFields_dropSrc dfs sfs h
    | _ => first | exact h | (simp only [Ty.dropAttrs, Compat]; done) | (simp only [Ty.dropAttrs, Compat] at h ⊢; exact h)
  | .variant dts dl, src, h => by
    cases src with
    | variant sts sl =>
      simp only [Compat, Ty.dropAttrs] at h ⊢
      rw [dropAttrs_enumFast_src]
      refine ⟨fun hf => (EnumCompat_drop (h.1 hf)).2, fun u hu => ?_⟩
      rw [dropAttrs_toList] at hu
      obtain ⟨x, hx, rfl⟩ := List.mem_map.1 hu
      have := h.2 x hx
      show if dts.hasName x.name = true then CompatNamed dts x.name x.ty.dropAttrs
        else CompatAt dts dl.dflt x.ty.dropAttrs
      by_cases hn : dts.hasName x.name = true
      · rw [if_pos hn] at this ⊢
        exact CompatNamed_dropSrc dts x.name x.ty this
      · rw [if_neg hn] at this ⊢
        exact CompatAt_dropSrc dts dl.dflt x.ty this
    | _ => first | exact h | (simp only [Ty.dropAttrs, Compat]; done) | (simp only [Ty.dropAttrs, Compat] at h ⊢; exact h)
  | .array de _ _ _, src, h => by
    cases src with
    | array se _ _ _ => simp only [Compat, Ty.dropAttrs] at h ⊢; exact Compat_dropSrc de se h
    | _ => first | exact h | (simp only [Ty.dropAttrs, Compat]; done) | (simp only [Ty.dropAttrs, Compat] at h ⊢; exact h)
  | .vector de dl, src, h => by
    cases src with
    | vector se sl => simp only [Compat, Ty.dropAttrs] at h ⊢; exact ⟨Compat_dropSrc de se h.1, h.2⟩
    | _ => first | exact h | (simp only [Ty.dropAttrs, Compat]; done) | (simp only [Ty.dropAttrs, Compat] at h ⊢; exact h)
  | .int _ _ _, src, h => by simp only [Compat]
  | .float _ _, src, h => by simp only [Compat]
  | .unit, src, h => by simp only [Compat]
termination_by structural t => t
theorem CompatFields_dropSrc : ∀ (dfs sfs : Fields), CompatFields dfs sfs → CompatFields dfs sfs.dropAttrs
  | .nil, sfs, h => by simp only [CompatFields]
  | .cons c _ t r, sfs, h => by
    simp only [CompatFields, dropAttrs_findLast] at h ⊢
    refine ⟨?_, CompatFields_dropSrc r sfs h.2⟩
    have := h.1
    cases hf : sfs.findLast c with
    | none => rw [hf] at this; exact this
    | some x => rw [hf] at this; exact Compat_dropSrc t x.2 this
termination_by structural dfs => dfs
theorem CompatNamed_dropSrc : ∀ (dts : Terms) (c : Comp) (sty : Ty), CompatNamed dts c sty →
    CompatNamed dts c sty.dropAttrs
  | .nil, c, sty, h => by simp only [CompatNamed]
  | .cons n _ _ t r, c, sty, h => by
    simp only [CompatNamed] at h ⊢
    exact ⟨fun hn => Compat_dropSrc t sty (h.1 hn), CompatNamed_dropSrc r c sty h.2⟩
termination_by structural dts => dts
theorem CompatAt_dropSrc : ∀ (dts : Terms) (i : Nat) (sty : Ty), CompatAt dts i sty →
    CompatAt dts i sty.dropAttrs
  | .nil, i, sty, h => by simp only [CompatAt]
  | .cons _ _ _ t _, 0, sty, h => by
    simp only [CompatAt] at h ⊢
    exact Compat_dropSrc t sty h
  | .cons _ _ _ _ r, i + 1, sty, h => by
    simp only [CompatAt] at h ⊢
    exact CompatAt_dropSrc r i sty h
termination_by structural dts => dts
end

mutual
theorem Compat_dropDst : ∀ (t src : Ty), Compat t src → Compat t.dropAttrs src
  | .struct dfs _ _, src, h => by
    cases src with
    | struct sfs _ _ => simp only [Compat, Ty.dropAttrs] at h ⊢; exact CompatFields_dropDst dfs sfs h
    | unit => simpa only [Compat, Ty.dropAttrs, dropAttrs_hasOutFields] using h
    | _ => simp only [Compat, Ty.dropAttrs]
  | .variant dts dl, src, h => by
    cases src with
    | variant sts sl =>
      simp only [Compat, Ty.dropAttrs] at h ⊢
      rw [dropAttrs_enumFast_dst]
      refine ⟨fun hf => (EnumCompat_drop (h.1 hf)).1, fun x hx => ?_⟩
      have := h.2 x hx
      rw [dropAttrs_hasName]
      split
      · rename_i hn
        rw [if_pos hn] at this
        exact CompatNamed_dropDst dts x.name x.ty this
      · rename_i hn
        rw [if_neg hn] at this
        exact CompatAt_dropDst dts dl.dflt x.ty this
    | _ => first | exact h | (simp only [Ty.dropAttrs, Compat]; done) | (simp only [Ty.dropAttrs, Compat] at h ⊢; exact h)
  | .array de _ _ _, src, h => by
    cases src with
    | array se _ _ _ => simp only [Compat, Ty.dropAttrs] at h ⊢; exact Compat_dropDst de se h
    | _ => simp only [Compat, Ty.dropAttrs]
  | .vector de dl, src, h => by
    cases src with
    | vector se sl => simp only [Compat, Ty.dropAttrs] at h ⊢; exact ⟨Compat_dropDst de se h.1, h.2⟩
    | _ => simp only [Compat, Ty.dropAttrs]
  | .int _ _ _, src, h => by simp only [Ty.dropAttrs, Compat]
  | .float _ _, src, h => by simp only [Ty.dropAttrs, Compat]
  | .unit, src, h => by simp only [Ty.dropAttrs, Compat]
termination_by structural t => t
theorem CompatFields_dropDst : ∀ (dfs sfs : Fields), CompatFields dfs sfs → CompatFields dfs.dropAttrs sfs
  | .nil, sfs, h => by simp only [Fields.dropAttrs, CompatFields]
  | .cons c _ t r, sfs, h => by
    simp only [Fields.dropAttrs, CompatFields] at h ⊢
    refine ⟨?_, CompatFields_dropDst r sfs h.2⟩
    have := h.1
    cases hf : sfs.findLast c with
    | none => rw [hf] at this; simpa only [dropAttrs_hasOut] using this
    | some x => rw [hf] at this; exact Compat_dropDst t x.2 this
termination_by structural dfs => dfs
theorem CompatNamed_dropDst : ∀ (dts : Terms) (c : Comp) (sty : Ty), CompatNamed dts c sty →
    CompatNamed dts.dropAttrs c sty
  | .nil, c, sty, h => by simp only [Terms.dropAttrs, CompatNamed]
  | .cons n _ _ t r, c, sty, h => by
    simp only [Terms.dropAttrs, CompatNamed] at h ⊢
    exact ⟨fun hn => Compat_dropDst t sty (h.1 hn), CompatNamed_dropDst r c sty h.2⟩
termination_by structural dts => dts
theorem CompatAt_dropDst : ∀ (dts : Terms) (i : Nat) (sty : Ty), CompatAt dts i sty →
    CompatAt dts.dropAttrs i sty
  | .nil, i, sty, h => by simp only [Terms.dropAttrs, CompatAt]
  | .cons _ _ _ t _, 0, sty, h => by
    simp only [Terms.dropAttrs, CompatAt] at h ⊢
    exact Compat_dropDst t sty h
  | .cons _ _ _ _ r, i + 1, sty, h => by
    simp only [Terms.dropAttrs, CompatAt] at h ⊢
    exact CompatAt_dropDst r i sty h
termination_by structural dts => dts
end

/-! ## As a destination -/

mutual
theorem dropAttrs_bare : ∀ t : Ty, t.dropAttrs.bare = t.bare
  | .int _ _ _ => rfl
  | .float _ _ => rfl
  | .unit => rfl
  | .struct fs _ _ => by simp only [Ty.dropAttrs, Ty.bare, dropAttrs_bareFields fs]
  | .variant ts _ => by simp only [Ty.dropAttrs, Ty.bare, dropAttrs_bareTerms ts]
  | .array e _ _ _ => by simp only [Ty.dropAttrs, Ty.bare, dropAttrs_bare e]
  | .vector e _ => by simp only [Ty.dropAttrs, Ty.bare, dropAttrs_bare e]
termination_by structural t => t
theorem dropAttrs_bareFields : ∀ fs : Fields, fs.dropAttrs.bare = fs.bare
  | .nil => rfl
  | .cons _ _ t r => by simp only [Fields.dropAttrs, Fields.bare, dropAttrs_bare t, dropAttrs_bareFields r]
termination_by structural fs => fs
theorem dropAttrs_bareTerms : ∀ ts : Terms, ts.dropAttrs.bare = ts.bare
  | .nil => rfl
  | .cons _ _ _ t r => by simp only [Terms.dropAttrs, Terms.bare, dropAttrs_bare t, dropAttrs_bareTerms r]
termination_by structural ts => ts
end

mutual
theorem dropAttrs_noAttrs : ∀ t : Ty, NoAttrs t.dropAttrs
  | .int _ _ _ => trivial
  | .float _ _ => trivial
  | .unit => trivial
  | .struct fs _ _ => dropAttrs_noAttrsFields fs
  | .variant ts _ => dropAttrs_noAttrsTerms ts
  | .array e _ _ _ => dropAttrs_noAttrs e
  | .vector e _ => dropAttrs_noAttrs e
termination_by structural t => t
theorem dropAttrs_noAttrsFields : ∀ fs : Fields, NoAttrsFields fs.dropAttrs
  | .nil => trivial
  | .cons _ _ t r => ⟨dropAttrs_noAttrs t, dropAttrs_noAttrsFields r⟩
termination_by structural fs => fs
theorem dropAttrs_noAttrsTerms : ∀ ts : Terms, NoAttrsTerms ts.dropAttrs
  | .nil => trivial
  | .cons _ _ _ t r => ⟨rfl, dropAttrs_noAttrs t, dropAttrs_noAttrsTerms r⟩
termination_by structural ts => ts
end

mutual
theorem dropAttrs_id : ∀ t : Ty, NoAttrs t → t.dropAttrs = t
  | .int _ _ _, _ => rfl
  | .float _ _, _ => rfl
  | .unit, _ => rfl
  | .struct fs _ _, h => by simp only [Ty.dropAttrs, dropAttrs_idFields fs h]
  | .variant ts _, h => by simp only [Ty.dropAttrs, dropAttrs_idTerms ts h]
  | .array e _ _ _, h => by simp only [Ty.dropAttrs, dropAttrs_id e h]
  | .vector e _, h => by simp only [Ty.dropAttrs, dropAttrs_id e h]
termination_by structural t => t
theorem dropAttrs_idFields : ∀ fs : Fields, NoAttrsFields fs → fs.dropAttrs = fs
  | .nil, _ => rfl
  | .cons _ _ t r, h => by simp only [Fields.dropAttrs, dropAttrs_id t h.1, dropAttrs_idFields r h.2]
termination_by structural fs => fs
theorem dropAttrs_idTerms : ∀ ts : Terms, NoAttrsTerms ts → ts.dropAttrs = ts
  | .nil, _ => rfl
  | .cons _ _ _ t r, h => by
    simp only [Terms.dropAttrs, dropAttrs_id t h.2.1, dropAttrs_idTerms r h.2.2, h.1]
termination_by structural ts => ts
end

/-- The first term of the name takes every payload. -/
theorem convNamed_drop (F : Nat → Nat → Nat → Nat) (c : Comp) (p : Val) : ∀ (ts : Terms) (u : Term),
    ts.toList.find? (fun t => t.name == c) = some u → conv F u.ty.dropAttrs p = some p →
    convNamed F ts.dropAttrs c p = some (.variant c p)
  | .nil, u, hf, _ => by simp [Terms.toList] at hf
  | .cons n g as t r, u, hf, hc => by
    simp only [Terms.toList, List.find?_cons] at hf
    simp only [Terms.dropAttrs, convNamed]
    by_cases hn : n = c
    · have e : (n == c) = true := by simpa using hn
      rw [e] at hf
      simp only [Option.some.injEq] at hf
      subst hf
      simp only at hc
      rw [if_pos hn]
      simp only [attrsAllow, hc, hn]
    · have e : (n == c) = false := by simpa using hn
      rw [e] at hf
      rw [if_neg hn]
      exact convNamed_drop F c p r u hf hc

theorem leadsFields_keys : ∀ (hfs fs : Fields), LeadsFields hfs fs → fs.toList.map (·.1) = hfs.toList.map (·.1)
  | .nil, fs, h => by simp only [LeadsFields] at h; subst h; rfl
  | .cons c o h hr, fs, hl => by
    obtain ⟨o', t, r, rfl, _, h2⟩ := hl
    simp only [Fields.toList, List.map_cons, leadsFields_keys hr r h2]

mutual
theorem leads_conv (F : Nat → Nat → Nat → Nat) : ∀ (h t : Ty) (v : Val), Leads h t → Plain h → WF t → Fits h v →
    conv F t.dropAttrs v = some v
  | .int w s al, t, v, hl, hp, hw, hf =>
    conv_fits F _ v (WF_dropAttrs t hw) (fits_bare (.int w s al) _ v (by rw [dropAttrs_bare]; exact hl)
      (dropAttrs_noAttrs t) hp hf)
  | .float w al, t, v, hl, hp, hw, hf =>
    conv_fits F _ v (WF_dropAttrs t hw) (fits_bare (.float w al) _ v (by rw [dropAttrs_bare]; exact hl)
      (dropAttrs_noAttrs t) hp hf)
  | .unit, t, v, hl, hp, hw, hf =>
    conv_fits F _ v (WF_dropAttrs t hw) (fits_bare .unit _ v (by rw [dropAttrs_bare]; exact hl)
      (dropAttrs_noAttrs t) hp hf)
  | .array e n esz al, t, v, hl, hp, hw, hf =>
    conv_fits F _ v (WF_dropAttrs t hw) (fits_bare (.array e n esz al) _ v (by rw [dropAttrs_bare]; exact hl)
      (dropAttrs_noAttrs t) hp hf)
  | .vector e l, t, v, hl, hp, hw, hf =>
    conv_fits F _ v (WF_dropAttrs t hw) (fits_bare (.vector e l) _ v (by rw [dropAttrs_bare]; exact hl)
      (dropAttrs_noAttrs t) hp hf)
  | .struct hfs _ _, t, v, hl, hp, hw, hf => by
    obtain ⟨fs, sz, al, rfl, hl⟩ := hl
    obtain ⟨vs, rfl, hf⟩ := hf
    have hk : vs.map (·.1) = fs.toList.map (·.1) := by rw [FitsFields_keys hf]; exact (leadsFields_keys hfs fs hl).symm
    have := leadsFields_conv F hfs fs vs [] hl hp hw.1 hf (by rw [List.nil_append, hk]; exact hw.2.names)
    simp only [List.nil_append] at this
    simp only [Ty.dropAttrs, conv, this]
  | .variant hts hl', t, v, hl, hp, hw, hf => by
    obtain ⟨ts, l, rfl, hl, _⟩ := hl
    obtain ⟨c, p, rfl, h1, h2⟩ := hf
    obtain ⟨x, hx, hc⟩ := filter_one h2
    have hc := of_decide_eq_true hc
    obtain ⟨hcn, hca⟩ := hc
    have hfx := (FitsTerms_iff.1 h1 x hx hcn).2 hca
    obtain ⟨u, hu, _, hb⟩ := hl x hx
    rw [hcn] at hu
    have hm := List.mem_of_find?_eq_some hu
    have hpx := (PlainTerms_iff.1 hp.2 x hx).2
    have hcv := conv_fits F _ p (WF_dropAttrs u.ty (terms_WF _ hw.1 u hm)) (fits_bare x.ty _ p
      (by rw [dropAttrs_bare]; exact hb) (dropAttrs_noAttrs u.ty) hpx hfx)
    have hn : ts.dropAttrs.hasName c = true := by
      rw [dropAttrs_hasName]
      have := List.find?_some hu
      exact hasName_iff.2 ⟨u, hm, by simpa using this⟩
    simp only [Ty.dropAttrs, conv, hn, if_true]
    exact convNamed_drop F c p ts u hu hcv
termination_by structural h => h
theorem leadsFields_conv (F : Nat → Nat → Nat → Nat) : ∀ (hfs fs : Fields) (vs pre : List (Comp × Val)),
    LeadsFields hfs fs → PlainFields hfs → WFFields fs → FitsFields hfs vs → ((pre ++ vs).map (·.1)).Nodup →
    convFields F fs.dropAttrs (pre ++ vs) = some vs
  | .nil, fs, vs, pre, hl, _, _, hf, _ => by
    simp only [LeadsFields] at hl
    simp only [FitsFields] at hf
    subst hl hf
    simp [Fields.dropAttrs, convFields]
  | .cons c o h hr, fs, vs, pre, hl, hp, hw, hf, hn => by
    obtain ⟨o', t, r, rfl, h1, h2⟩ := hl
    obtain ⟨v, rest, rfl, h3, h4⟩ := hf
    have hlk : (pre ++ (c, v) :: rest).lookup c = some v := by
      rw [List.lookup_append]
      have : pre.lookup c = none := by
        rw [List.lookup_eq_none_iff]
        intro x hx
        rw [List.map_append, List.nodup_append] at hn
        have := hn.2.2 x.1 (List.mem_map.2 ⟨x, hx, rfl⟩) c (by simp)
        simpa using fun e => this e.symm
      simp [this]
    have h5 := leadsFields_conv F hr r rest (pre ++ [(c, v)]) h2 hp.2 hw.2 h4 (by simpa using hn)
    rw [List.append_assoc, List.singleton_append] at h5
    simp only [Fields.dropAttrs, convFields, hlk, leads_conv F h t v h1 hp.1 hw.1 h3, h5]
termination_by structural hfs => hfs
end

/-! ## What is rebuilt -/

mutual
theorem layout_rebuild : ∀ t : Ty, rebuild (layout t) = if t.hasFloat then none else some (layout t).dropAttrs
  | .int _ _ _ => by simp [layout, rebuild, Ty.hasFloat, Ty.dropAttrs]
  | .float _ _ => by simp [layout, rebuild, Ty.hasFloat]
  | .unit => by simp [layout, rebuild, Ty.hasFloat, Ty.dropAttrs]
  | .struct fs _ _ => by
    simp only [layout, rebuild, Ty.hasFloat, Ty.dropAttrs, layoutFields_rebuild fs]
    cases fs.hasFloat <;> simp
  | .variant ts l => by
    simp only [layout, rebuild, Ty.hasFloat, Ty.dropAttrs, layoutTerms_rebuild ts]
    have : rebuildVar (layoutVar (layoutTerms ts).toList l) = layoutVar (layoutTerms ts).toList l := by
      unfold rebuildVar layoutVar
      cases l.outline <;> simp
    rw [this]
    cases ts.hasFloat <;> simp
  | .array e _ _ _ => by
    simp only [layout, rebuild, Ty.hasFloat, Ty.dropAttrs, layout_rebuild e]
    cases e.hasFloat <;> simp
  | .vector e l => by
    simp only [layout, rebuild, Ty.hasFloat, Ty.dropAttrs, layout_rebuild e]
    cases e.hasFloat with
    | true => simp
    | false => simp only [Bool.false_eq_true, if_false, dropAttrs_size, dropAttrs_align]; rfl
termination_by structural t => t
theorem layoutFields_rebuild : ∀ (fs : Fields) (off al : Nat), rebuildFields (layoutFields fs off al).1 =
    if fs.hasFloat then none else some (layoutFields fs off al).1.dropAttrs
  | .nil, _, _ => by simp [layoutFields, rebuildFields, Fields.hasFloat, Fields.dropAttrs]
  | .cons _ _ t r, off, al => by
    simp only [layoutFields, rebuildFields, Fields.hasFloat, Fields.dropAttrs, layout_rebuild t,
      layoutFields_rebuild r]
    cases t.hasFloat <;> cases r.hasFloat <;> simp
termination_by structural fs => fs
theorem layoutTerms_rebuild : ∀ ts : Terms, rebuildTerms (layoutTerms ts) =
    if ts.hasFloat then none else some (layoutTerms ts).dropAttrs
  | .nil => by simp [layoutTerms, rebuildTerms, Terms.hasFloat, Terms.dropAttrs]
  | .cons _ _ _ t r => by
    simp only [layoutTerms, rebuildTerms, Terms.hasFloat, Terms.dropAttrs, layout_rebuild t, layoutTerms_rebuild r]
    cases t.hasFloat <;> cases r.hasFloat <;> simp
termination_by structural ts => ts
end

mutual
theorem setOut_rebuild (d : Nat) : ∀ t : Ty, rebuild (setOut d t) = (rebuild t).map (setOut d)
  | .int _ _ _ => rfl
  | .float _ _ => rfl
  | .unit => rfl
  | .array e _ _ _ => by simp only [setOut, rebuild]; cases rebuild e <;> rfl
  | .vector e _ => by simp only [setOut, rebuild]; cases rebuild e <;> rfl
  | .struct fs _ _ => by
    simp only [setOut, rebuild, setOutFields_rebuild d fs]
    cases rebuildFields fs <;> rfl
  | .variant ts l => by
    cases ho : l.outline <;>
      simp only [setOut, ho, Bool.false_eq_true, if_false, if_true, rebuild] <;>
      cases rebuildTerms ts <;> simp [setOut, rebuildVar, ho]
termination_by structural t => t
theorem setOutFields_rebuild (d : Nat) : ∀ fs : Fields,
    rebuildFields (setOutFields d fs) = (rebuildFields fs).map (setOutFields d)
  | .nil => rfl
  | .cons _ _ t r => by
    simp only [setOutFields, rebuildFields, setOut_rebuild d t, setOutFields_rebuild d r]
    cases rebuild t <;> cases rebuildFields r <;> rfl
termination_by structural fs => fs
end

mutual
theorem setOut_dropAttrs (d : Nat) : ∀ t : Ty, (setOut d t).dropAttrs = setOut d t.dropAttrs
  | .int _ _ _ => rfl
  | .float _ _ => rfl
  | .unit => rfl
  | .array e _ _ _ => rfl
  | .vector e _ => rfl
  | .struct fs _ _ => by simp only [setOut, Ty.dropAttrs, setOutFields_dropAttrs d fs]
  | .variant ts l => by
    simp only [setOut, Ty.dropAttrs]
    split <;> rfl
termination_by structural t => t
theorem setOutFields_dropAttrs (d : Nat) : ∀ fs : Fields, (setOutFields d fs).dropAttrs = setOutFields d fs.dropAttrs
  | .nil => rfl
  | .cons _ _ t r => by
    simp only [setOutFields, Fields.dropAttrs, setOut_dropAttrs d t, setOutFields_dropAttrs d r]
termination_by structural fs => fs
end

theorem Terms.hasFloat_any : ∀ ts : Terms, ts.hasFloat = ts.toList.any fun t => t.ty.hasFloat
  | .nil => rfl
  | .cons _ _ _ t r => by simp only [Terms.hasFloat, Terms.toList, List.any_cons, Terms.hasFloat_any r]

mutual
theorem hasFloat_bare : ∀ t : Ty, t.bare.hasFloat = t.hasFloat
  | .int _ _ _ => rfl
  | .float _ _ => rfl
  | .unit => rfl
  | .struct fs _ _ => by simp only [Ty.bare, Ty.hasFloat, hasFloat_bareFields fs]
  | .variant ts _ => by simp only [Ty.bare, Ty.hasFloat, hasFloat_bareTerms ts]
  | .array e _ _ _ => by simp only [Ty.bare, Ty.hasFloat, hasFloat_bare e]
  | .vector e _ => by simp only [Ty.bare, Ty.hasFloat, hasFloat_bare e]
termination_by structural t => t
theorem hasFloat_bareFields : ∀ fs : Fields, fs.bare.hasFloat = fs.hasFloat
  | .nil => rfl
  | .cons _ _ t r => by simp only [Fields.bare, Fields.hasFloat, hasFloat_bare t, hasFloat_bareFields r]
termination_by structural fs => fs
theorem hasFloat_bareTerms : ∀ ts : Terms, ts.bare.hasFloat = ts.hasFloat
  | .nil => rfl
  | .cons _ _ _ t r => by simp only [Terms.bare, Terms.hasFloat, hasFloat_bare t, hasFloat_bareTerms r]
termination_by structural ts => ts
end

mutual
theorem split_hasFloat : ∀ (t : Ty) (s : Split), splitFirst t = some s →
    s.short.hasFloat = t.hasFloat ∧ s.long.hasFloat = t.hasFloat
  | .vector e l, s, h => by
    simp only [splitFirst] at h
    split at h
    · cases h
    · cases h; exact ⟨rfl, rfl⟩
  | .struct fs sz al, s, h => by
    simp only [splitFirst] at h
    split at h
    · rename_i n a b path hf
      cases h
      exact splitFields_hasFloat fs n a b path hf
    · cases h
  | .int _ _ _, _, h => by simp [splitFirst] at h
  | .float _ _, _, h => by simp [splitFirst] at h
  | .unit, _, h => by simp [splitFirst] at h
  | .array _ _ _ _, _, h => by simp [splitFirst] at h
  | .variant _ _, _, h => by simp [splitFirst] at h
termination_by structural t => t
theorem splitFields_hasFloat : ∀ (fs : Fields) (n : Nat) (a b : Fields) (path : Path),
    splitFields fs = some (n, a, b, path) → a.hasFloat = fs.hasFloat ∧ b.hasFloat = fs.hasFloat
  | .nil, _, _, _, _, h => by simp [splitFields] at h
  | .cons c o t r, n, a, b, path, h => by
    simp only [splitFields] at h
    split at h
    · rename_i s ht
      cases h
      obtain ⟨h1, h2⟩ := split_hasFloat t s ht
      simp only [Fields.hasFloat, h1, h2, and_self]
    · split at h
      · rename_i k x y q hr
        cases h
        obtain ⟨h1, h2⟩ := splitFields_hasFloat r _ _ _ _ hr
        simp only [Fields.hasFloat, h1, h2, and_self]
      · cases h
termination_by structural fs => fs
end

theorem Step.hasFloat {x y : List Term × Nat} (s : Step x y) :
    (y.1.any fun t => t.ty.hasFloat) = x.1.any fun t => t.ty.hasFloat := by
  obtain ⟨h1, h2⟩ := split_hasFloat _ _ s.split
  rw [s.perm.any_eq, s.src]
  simp only [List.any_append, List.any_cons, List.any_nil, Bool.or_false, Term.longOf, Term.shortOf, h1, h2]
  cases s.pre.any fun t => t.ty.hasFloat <;> cases s.t.ty.hasFloat <;> simp

theorem hoist_hasFloat (x : List Term × Nat) :
    ((hoist x).1.any fun t => t.ty.hasFloat) = x.1.any fun t => t.ty.hasFloat :=
  hoist_inv (P := fun y => (y.1.any fun t => t.ty.hasFloat) = x.1.any fun t => t.ty.hasFloat)
    (fun _ _ s h => by rw [s.hasFloat]; exact h) x rfl

mutual
theorem findHoist_hasFloat : ∀ t t' : Ty, findHoist t = some t' → t'.hasFloat = t.hasFloat
  | .variant ts l, t', h => by
    simp only [findHoist, Option.some.injEq] at h
    subst h
    simp only [Ty.hasFloat, Terms.hasFloat_any, toList_ofList]
    exact hoist_hasFloat (ts.toList, l.dflt)
  | .struct fs sz al, t', h => by
    simp only [findHoist] at h
    split at h
    · rename_i fs' hf
      cases h
      exact findHoistFields_hasFloat fs fs' hf
    · cases h
  | .int _ _ _, _, h => by simp [findHoist] at h
  | .float _ _, _, h => by simp [findHoist] at h
  | .unit, _, h => by simp [findHoist] at h
  | .array _ _ _ _, _, h => by simp [findHoist] at h
  | .vector _ _, _, h => by simp [findHoist] at h
termination_by structural t => t
theorem findHoistFields_hasFloat : ∀ fs fs' : Fields, findHoistFields fs = some fs' → fs'.hasFloat = fs.hasFloat
  | .nil, _, h => by simp [findHoistFields] at h
  | .cons c o t r, fs', h => by
    simp only [findHoistFields] at h
    split at h
    · rename_i t' ht
      cases h
      simp only [Fields.hasFloat, findHoist_hasFloat t t' ht]
    · split at h
      · rename_i r' hr
        cases h
        simp only [Fields.hasFloat, findHoistFields_hasFloat r r' hr]
      · cases h
termination_by structural fs => fs
end

theorem prepare_hasFloat (t : Ty) (path : Path) : (prepare t path).hasFloat = t.hasFloat := by
  have key : ∀ t1 : Ty, ((findHoist t1).getD t1).hasFloat = t1.hasFloat := by
    intro t1
    cases hf : findHoist t1 with
    | none => rfl
    | some t2 => exact findHoist_hasFloat t1 t2 hf
  unfold prepare
  simp only [key]
  cases ho : tryOutline t path with
  | none => rfl
  | some t1 =>
    have := tryOutline_bare t path t1 ho
    rw [Option.getD_some, ← hasFloat_bare t1, this, hasFloat_bare]

/-- What the generated code makes of a planned protocol. -/
theorem plan_rebuild (t : Ty) (path : Path) (p : Proto) (h : plan t path = some p) :
    rebuildProto p = if t.hasFloat then none else some (Proto.mk p.head.dropAttrs p.bufOff) := by
  unfold plan at h
  split at h
  · cases h
    have hl := layout_rebuild (prepare t path)
    rw [prepare_hasFloat] at hl
    unfold rebuildProto genOffset
    cases outDist (layout (prepare t path)) with
    | none => simp only [hl]; cases t.hasFloat <;> rfl
    | some x =>
      simp only [setOut_rebuild, hl, setOut_dropAttrs]
      cases t.hasFloat <;> rfl
  · cases h

/-! ## Nothing to hoist -/

mutual
theorem unsplit_split : ∀ t : Ty, Unsplit t → splitFirst t = none
  | .vector e l, h => by simp only [splitFirst, Unsplit] at h ⊢; rw [if_pos h]
  | .struct fs _ _, h => by
    simp only [splitFirst]
    rw [unsplitFields_split fs h]
  | .int _ _ _, _ => rfl
  | .float _ _, _ => rfl
  | .unit, _ => rfl
  | .array _ _ _ _, _ => rfl
  | .variant _ _, _ => rfl
termination_by structural t => t
theorem unsplitFields_split : ∀ fs : Fields, UnsplitFields fs → splitFields fs = none
  | .nil, _ => rfl
  | .cons _ _ t r, h => by simp only [splitFields, unsplit_split t h.1, unsplitFields_split r h.2]
termination_by structural fs => fs
end

theorem unsplit_hoist (x : List Term × Nat) (h : ∀ t ∈ x.1, Unsplit t.ty) : hoist x = x := by
  have h1 : hoistOnce x = none := by
    have : ∀ (g : Nat) (l : List Term), (∀ t ∈ l, Unsplit t.ty) → splitTerms g l = none := by
      intro g l
      induction l with
      | nil => intro _; rfl
      | cons t r ih =>
        intro h
        simp only [splitTerms, unsplit_split _ (h t (by simp)), ih (fun u hu => h u (by simp [hu]))]
    simp only [hoistOnce, this _ _ h]
  have : ∀ n, hoistN n x = x := by
    intro n
    cases n with
    | zero => rfl
    | succ n => simp only [hoistN, h1]
  exact this _

theorem ofList_toList : ∀ ts : Terms, Terms.ofList ts.toList = ts
  | .nil => rfl
  | .cons n g as t r => by simp only [Terms.toList, Terms.ofList, ofList_toList r]

mutual
theorem unhoisted_find : ∀ t t' : Ty, Unhoisted t → findHoist t = some t' → t' = t
  | .variant ts l, t', hu, h => by
    simp only [findHoist, Option.some.injEq, unsplit_hoist (ts.toList, l.dflt) hu, ofList_toList] at h
    exact h.symm
  | .struct fs sz al, t', hu, h => by
    simp only [findHoist] at h
    split at h
    · rename_i fs' hf
      cases h
      rw [unhoistedFields_find fs fs' hu hf]
    · cases h
  | .int _ _ _, _, _, h => by simp [findHoist] at h
  | .float _ _, _, _, h => by simp [findHoist] at h
  | .unit, _, _, h => by simp [findHoist] at h
  | .array _ _ _ _, _, _, h => by simp [findHoist] at h
  | .vector _ _, _, _, h => by simp [findHoist] at h
termination_by structural t => t
theorem unhoistedFields_find : ∀ fs fs' : Fields, UnhoistedFields fs → findHoistFields fs = some fs' → fs' = fs
  | .nil, _, _, h => by simp [findHoistFields] at h
  | .cons c o t r, fs', hu, h => by
    simp only [findHoistFields] at h
    split at h
    · rename_i t' ht
      cases h
      rw [unhoisted_find t t' hu.1 ht]
    · split at h
      · rename_i r' hr
        cases h
        rw [unhoistedFields_find r r' hu.2 hr]
      · cases h
termination_by structural fs => fs
end

mutual
theorem tryOutline_unhoisted : ∀ (t : Ty) (path : Path) (t' : Ty), tryOutline t path = some t' →
    (Unhoisted t → Unhoisted t') ∧ (NoAttrs t → NoAttrs t')
  | .variant ts l, path, t', ho => by
    simp only [tryOutline] at ho
    split at ho
    · cases ho
    · cases ho
      exact ⟨fun h => h, fun h => h⟩
  | .struct fs sz al, path, t', ho => by
    simp only [tryOutline] at ho
    split at ho
    · cases ho
    · split at ho
      · rename_i fs' hfs
        cases ho
        exact tryOutlineFields_unhoisted fs path fs' hfs
      · cases ho
  | .int _ _ _, path, t', ho => by simp [tryOutline] at ho
  | .float _ _, path, t', ho => by simp [tryOutline] at ho
  | .unit, path, t', ho => by simp [tryOutline] at ho
  | .array _ _ _ _, path, t', ho => by simp [tryOutline] at ho
  | .vector _ _, path, t', ho => by simp [tryOutline] at ho
termination_by structural t => t
theorem tryOutlineFields_unhoisted : ∀ (fs : Fields) (path : Path) (fs' : Fields),
    tryOutlineFields fs path = some fs' →
    (UnhoistedFields fs → UnhoistedFields fs') ∧ (NoAttrsFields fs → NoAttrsFields fs')
  | .nil, path, fs', ho => by simp [tryOutlineFields] at ho
  | .cons c o t r, path, fs', ho => by
    simp only [tryOutlineFields] at ho
    split at ho
    · rename_i t' ht
      cases ho
      obtain ⟨h1, h2⟩ := tryOutline_unhoisted t _ t' ht
      exact ⟨fun h => ⟨h1 h.1, h.2⟩, fun h => ⟨h2 h.1, h.2⟩⟩
    · split at ho
      · rename_i r' hr
        cases ho
        obtain ⟨h1, h2⟩ := tryOutlineFields_unhoisted r path r' hr
        exact ⟨fun h => ⟨h.1, h1 h.2⟩, fun h => ⟨h.1, h2 h.2⟩⟩
      · cases ho
termination_by structural fs => fs
end

mutual
theorem plain_noAttrs : ∀ t : Ty, Plain t → NoAttrs t
  | .int _ _ _, _ => trivial
  | .float _ _, _ => trivial
  | .unit, _ => trivial
  | .struct fs _ _, h => plain_noAttrsFields fs h
  | .variant ts _, h => plain_noAttrsTerms ts h.2
  | .array e _ _ _, h => plain_noAttrs e h
  | .vector e _, h => plain_noAttrs e h
termination_by structural t => t
theorem plain_noAttrsFields : ∀ fs : Fields, PlainFields fs → NoAttrsFields fs
  | .nil, _ => trivial
  | .cons _ _ t r, h => ⟨plain_noAttrs t h.1, plain_noAttrsFields r h.2⟩
termination_by structural fs => fs
theorem plain_noAttrsTerms : ∀ ts : Terms, PlainTerms ts → NoAttrsTerms ts
  | .nil, _ => trivial
  | .cons _ _ _ t r, h => ⟨h.1, plain_noAttrs t h.2.1, plain_noAttrsTerms r h.2.2⟩
termination_by structural ts => ts
end

mutual
theorem layout_noAttrs : ∀ t : Ty, NoAttrs t → NoAttrs (layout t)
  | .int _ _ _, _ => trivial
  | .float _ _, _ => trivial
  | .unit, _ => trivial
  | .struct fs _ _, h => layoutFields_noAttrs fs 0 1 h
  | .variant ts _, h => layoutTerms_noAttrs ts h
  | .array e _ _ _, h => layout_noAttrs e h
  | .vector e _, h => layout_noAttrs e h
termination_by structural t => t
theorem layoutFields_noAttrs : ∀ (fs : Fields) (off al : Nat), NoAttrsFields fs →
    NoAttrsFields (layoutFields fs off al).1
  | .nil, _, _, _ => trivial
  | .cons _ _ t r, _, _, h => ⟨layout_noAttrs t h.1, layoutFields_noAttrs r _ _ h.2⟩
termination_by structural fs => fs
theorem layoutTerms_noAttrs : ∀ ts : Terms, NoAttrsTerms ts → NoAttrsTerms (layoutTerms ts)
  | .nil, _ => trivial
  | .cons _ _ _ t r, h => ⟨h.1, layout_noAttrs t h.2.1, layoutTerms_noAttrs r h.2.2⟩
termination_by structural ts => ts
end

mutual
theorem setOut_noAttrs (d : Nat) : ∀ t : Ty, NoAttrs t → NoAttrs (setOut d t)
  | .int _ _ _, _ => trivial
  | .float _ _, _ => trivial
  | .unit, _ => trivial
  | .struct fs _ _, h => setOutFields_noAttrs d fs h
  | .variant ts l, h => by simp only [setOut]; split <;> exact h
  | .array _ _ _ _, h => h
  | .vector _ _, h => h
termination_by structural t => t
theorem setOutFields_noAttrs (d : Nat) : ∀ fs : Fields, NoAttrsFields fs → NoAttrsFields (setOutFields d fs)
  | .nil, _ => trivial
  | .cons _ _ t r, h => ⟨setOut_noAttrs d t h.1, setOutFields_noAttrs d r h.2⟩
termination_by structural fs => fs
end

/-- A planned type has attributes only if there was something to hoist. -/
theorem plan_noAttrs (t : Ty) (path : Path) (p : Proto) (hp : Plain t) (hu : Unhoisted t)
    (h : plan t path = some p) : NoAttrs p.head := by
  have hprep : NoAttrs (prepare t path) := by
    have key : ∀ t1 : Ty, Unhoisted t1 → NoAttrs t1 → NoAttrs ((findHoist t1).getD t1) := by
      intro t1 h1 h2
      cases hf : findHoist t1 with
      | none => exact h2
      | some t2 => rw [Option.getD_some, unhoisted_find t1 t2 h1 hf]; exact h2
    unfold prepare
    cases ho : tryOutline t path with
    | none => exact key t hu (plain_noAttrs t hp)
    | some t1 =>
      obtain ⟨h1, h2⟩ := tryOutline_unhoisted t path t1 ho
      exact key t1 (h1 hu) (h2 (plain_noAttrs t hp))
  unfold plan at h
  split at h
  · cases h
    have := layout_noAttrs _ hprep
    unfold genOffset
    split
    · exact this
    · exact setOut_noAttrs _ _ this
  · cases h

end PJ
