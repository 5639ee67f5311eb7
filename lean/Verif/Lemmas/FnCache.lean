import Verif.Model.FnCache
import Verif.Lemmas.Sort
/-!
# Lemmas about the functions of a module
-/
namespace PJ

/-! ## What the operations and the keys do -/

/-- What an operation does when everything is inlined. -/
def opExec (E : Env) : Op → Exec
  | .transcode d s p hs => fun sa da st => xcode E d s p hs sa da st
  | .default d hs => fun _ da st => keepBuf st (dflt E d hs da st)

/-- What the function of a key does when everything is inlined. -/
def keyExec (E : Env) (k : FnKey) : Exec := fun sa da st =>
  match k.src with
  | none => dflt E k.dst k.hs da st
  | some s => xcode E k.dst s k.path k.hs sa da st

theorem keepBuf_ok (st : St) : keepBuf st (.ok st) = .ok st := rfl

theorem lowerDefault_exec (E : Env) (b : BufTy) (d : Ty) (hs : Handlers) (sa da : Nat) (st : St) :
    runLow E (keyExec E) (lowerDefault b d hs) sa da st = keepBuf st (dflt E d hs da st) := by
  cases d with
  | int w s al =>
    simp only [lowerDefault, runLow, dfltPrimExec, dflt]
    split <;> rfl
  | float w al =>
    simp only [lowerDefault, runLow, dfltPrimExec, dflt]
    split <;> rfl
  | unit => simp [lowerDefault, runLow, dflt, keepBuf_ok]
  | struct fs sz al => rfl
  | variant ts l => rfl
  | array e n esz al => simp only [lowerDefault, runLow, keyExec, dflt]
  | vector e l =>
    simp only [lowerDefault, runLow, dfltPrimExec, dflt, storeLength]
    split <;> rfl

theorem lowerOp_exec (E : Env) (b : BufTy) (o : Op) (sa da : Nat) (st : St) :
    runLow E (keyExec E) (lowerOp b o) sa da st = opExec E o sa da st := by
  cases o with
  | default d hs => exact lowerDefault_exec E b d hs sa da st
  | transcode d s p hs =>
    simp only [lowerOp, opExec]
    cases d with
    | unit => simp [lowerTranscode, runLow, xcode]
    | int w sg al =>
      cases s <;> simp only [lowerTranscode, xcode, lowerDefault_exec] <;>
        simp only [runLow, primExec]
    | float w al =>
      cases s <;> simp only [lowerTranscode, xcode, lowerDefault_exec] <;>
        simp only [runLow, primExec]
    | struct fs sz al =>
      cases s <;> simp only [lowerTranscode, xcode, lowerDefault_exec] <;>
        simp only [runLow, keyExec, xcode]
    | variant ts l =>
      cases s with
      | variant sts sl =>
        simp only [lowerTranscode]
        by_cases h : enumFast ts sts l sl
        · rw [if_pos h]; simp [runLow, xcode, h]
        · rw [if_neg h]; simp [runLow, keyExec]
      | _ =>
        simp only [lowerTranscode, xcode, lowerDefault_exec] <;> simp only [runLow]
    | array e n esz al =>
      cases s <;> simp only [lowerTranscode, xcode, lowerDefault_exec] <;>
        simp only [runLow, keyExec, xcode]
    | vector e l =>
      cases s <;> simp only [lowerTranscode, xcode, lowerDefault_exec] <;>
        simp only [runLow, keyExec, xcode]

/-! ## Keys that operations are lowered to -/

/-- The keys that occur. -/
def KeyOK (k : FnKey) : Prop :=
  match k.dst with
  | .struct .. => (srcFields k.src).isSome
  | .variant dts dl =>
    match k.src with
    | none => k.path = []
    | some (.variant sts sl) => enumFast dts sts dl sl = false
    | _ => False
  | .array e .. => (srcArray e k.src).isSome
  | .vector .. => ∃ e l, k.src = some (.vector e l)
  | _ => False

theorem lowerDefault_key {b : BufTy} {d : Ty} {hs : Handlers} {k : FnKey}
    (h : (lowerDefault b d hs).key = some k) : KeyOK k ∧ k.buf = b ∧ k.dst = d := by
  cases d <;> simp only [lowerDefault, Low.key, Option.some.injEq, reduceCtorEq] at h <;>
    subst h <;> simp [KeyOK, srcFields, srcArray]

theorem lowerOp_key {b : BufTy} {o : Op} {k : FnKey} (h : (lowerOp b o).key = some k) :
    KeyOK k ∧ k.buf = b ∧ k.dst = (match o with | .transcode d .. => d | .default d _ => d) := by
  cases o with
  | default d hs => exact lowerDefault_key h
  | transcode d s p hs =>
    simp only [lowerOp] at h
    cases d with
    | unit => simp [lowerTranscode, Low.key] at h
    | variant ts l =>
      cases s with
      | unit => exact lowerDefault_key h
      | variant sts sl =>
        simp only [lowerTranscode] at h
        by_cases hf : enumFast ts sts l sl
        · rw [if_pos hf] at h; simp [Low.key] at h
        · rw [if_neg hf] at h
          simp only [Low.key, Option.some.injEq] at h
          subst h
          simpa [KeyOK] using hf
      | _ => simp [lowerTranscode, Low.key] at h
    | _ =>
      cases s <;> simp only [lowerTranscode] at h <;>
        first
        | exact lowerDefault_key h
        | (simp only [Low.key, Option.some.injEq, reduceCtorEq] at h <;> subst h <;>
            simp [KeyOK, srcFields, srcArray])

/-! ## Bodies with inlined operations -/

theorem bodyFields_exec (E : Env) : ∀ (dfs : Fields) (out : Bool) (sfs : Fields) (p : Path)
    (hs : Handlers) (sa da : Nat) (st : St),
    bodyFields (opExec E) dfs out sfs p hs sa da st = xFields E dfs out sfs p hs sa da st
  | .nil, _, _, _, _, _, _, _ => by simp [bodyFields, xFields]
  | .cons c off t r, out, sfs, p, hs, sa, da, st => by
    simp only [bodyFields, xFields]
    congr 1
    funext s
    exact bodyFields_exec E r out sfs p hs sa da s

theorem bodyFields_dflt (E : Env) : ∀ (dfs : Fields) (out : Bool) (p : Path)
    (hs : Handlers) (sa da : Nat) (st : St),
    bodyFields (opExec E) dfs out .nil p hs sa da st = dfltFields E dfs out hs da st
  | .nil, _, _, _, _, _, _ => by simp [bodyFields, dfltFields]
  | .cons c off t r, out, p, hs, sa, da, st => by
    simp only [bodyFields, dfltFields, Fields.findLast]
    congr 1
    funext s
    exact bodyFields_dflt E r out p hs sa da s

theorem bodyNamed_exec (E : Env) : ∀ (ts : Terms) (l : VarL) (c : Comp) (sty : Ty)
    (sa da : Nat) (st : St),
    bodyNamed E (opExec E) ts l c sty sa da st = xNamed E ts l c sty sa da st
  | .nil, _, _, _, _, _, _ => by simp [bodyNamed, xNamed]
  | .cons n g as t r, l, c, sty, sa, da, st => by
    simp only [bodyNamed, xNamed]
    rw [bodyNamed_exec E r]
    rfl

theorem bodyAt_exec (E : Env) : ∀ (ts : Terms) (l : VarL) (i : Nat) (sty : Ty)
    (hm : List (Comp × Nat)) (sa da : Nat) (st : St),
    bodyAt E (opExec E) ts l i sty hm sa da st = xAt E ts l i sty hm sa da st
  | .nil, _, _, _, _, _, _, _ => by simp [bodyAt, xAt]
  | .cons n g as t r, l, 0, sty, hm, sa, da, st => by
    simp only [bodyAt, xAt]
    rfl
  | .cons n g as t r, l, i + 1, sty, hm, sa, da, st => by
    simp only [bodyAt, xAt]
    exact bodyAt_exec E r l i sty hm sa da st

theorem termCond_unit (S : Mem) (sa : Nat) : ∀ as : List Attr,
    termCond S .unit sa as = unitCond as
  | [] => rfl
  | .undef d :: r => by simp only [termCond, unitCond, termCond_unit S sa r]
  | .split _ _ p :: r => by
    simp only [termCond, unitCond]
    cases p with
    | nil => simp [projVec]
    | cons c p => cases p <;> simp [projVec]

theorem xcode_unit (E : Env) (d : Ty) (p : Path) (hs : Handlers) (sa da : Nat) (st : St) :
    xcode E d .unit p hs sa da st = keepBuf st (dflt E d hs da st) := by
  cases d <;> simp [xcode, dflt, keepBuf_ok]

theorem xAt_dflt (E : Env) : ∀ (ts : Terms) (l : VarL) (i : Nat)
    (hm : List (Comp × Nat)) (sa da : Nat) (st : St),
    xAt E ts l i .unit hm sa da st = dfltAt E ts l i hm da st
  | .nil, _, _, _, _, _, _ => by simp [xAt, dfltAt]
  | .cons n g as t r, l, 0, hm, sa, da, st => by
    simp only [xAt, dfltAt, termCond_unit]
    cases unitCond as with
    | none => rfl
    | some b =>
      cases b
      · rfl
      · simp only
        congr 2
        funext s
        exact xcode_unit E t [] [] sa _ s
  | .cons n g as t r, l, i + 1, hm, sa, da, st => by
    simp only [xAt, dfltAt]
    exact xAt_dflt E r l i hm sa da st

/-- The body of a key whose operations are inlined is the inlined function. -/
theorem fnBody_exec (E : Env) (k : FnKey) (hk : KeyOK k) (sa da : Nat) (st : St) :
    fnBody E (opExec E) k sa da st = keyExec E k sa da st := by
  obtain ⟨d, s, p, hs, b⟩ := k
  cases d with
  | int => simp [KeyOK] at hk
  | float => simp [KeyOK] at hk
  | unit => simp [KeyOK] at hk
  | struct dfs dsz dal =>
    cases s with
    | none =>
      simp only [fnBody, srcFields, keyExec, dflt, bodyFields_dflt]
      congr 1
      funext s
      exact bodyFields_dflt E dfs false p hs sa da s
    | some s =>
      cases s with
      | struct sfs sz al =>
        simp only [fnBody, srcFields, keyExec, xcode, bodyFields_exec]
        congr 1
        funext s
        exact bodyFields_exec E dfs false sfs p hs sa da s
      | _ => simp [KeyOK, srcFields] at hk
  | variant dts dl =>
    cases s with
    | none =>
      simp only [KeyOK] at hk
      subst hk
      simp only [fnBody, srcTerms, keyExec, dflt, selectTerm, bodyAt_exec, xAt_dflt]
      cases handlerMap hs <;> rfl
    | some s =>
      cases s with
      | variant sts sl =>
        simp only [KeyOK] at hk
        simp only [fnBody, srcTerms, keyExec, xcode, hk, Bool.false_eq_true, if_false, bodyAt_exec,
          bodyNamed_exec]
        cases handlerMap hs with
        | none => rfl
        | some hm =>
          cases selectTerm E.S sts sl p sa with
          | none => rfl
          | some o => cases o <;> rfl
      | _ => simp [KeyOK] at hk
  | array de dn desz dal =>
    cases s with
    | none =>
      simp only [fnBody, srcArray, keyExec, dflt, Nat.zero_min, Nat.sub_zero, loop, Res.bind]
      rfl
    | some s =>
      cases s with
      | array se sn sesz sal =>
        simp only [fnBody, srcArray, keyExec, xcode]
        rfl
      | _ => simp [KeyOK, srcArray] at hk
  | vector de dl =>
    simp only [KeyOK] at hk
    obtain ⟨se, sl, rfl⟩ := hk
    simp only [fnBody, keyExec, xcode]
    rfl

/-! ## A body performs the operations it contains only -/

theorem bodyFields_congr {f g : Op → Exec} : ∀ (dfs : Fields) (out : Bool) (sfs : Fields)
    (p : Path) (hs : Handlers), (∀ o ∈ fieldOps dfs sfs p hs, f o = g o) →
    bodyFields f dfs out sfs p hs = bodyFields g dfs out sfs p hs
  | .nil, _, _, _, _, _ => rfl
  | .cons c off t r, out, sfs, p, hs, h => by
    simp only [fieldOps, List.mem_cons, forall_eq_or_imp] at h
    simp only [bodyFields, bodyFields_congr r out sfs p hs h.2]
    funext sa da st
    congr 1
    split
    · cases hc : sfs.findLast c with
      | none => simp only [hc] at h; rw [h.1]
      | some x => obtain ⟨so, sty⟩ := x; simp only [hc] at h; simp only [h.1]
    · rfl

theorem bodyNamed_congr {E : Env} {f g : Op → Exec} : ∀ (ts : Terms) (l : VarL) (c : Comp)
    (sty : Ty), (∀ t ∈ ts.toList, t.name = c → f (.transcode t.ty sty [] []) =
      g (.transcode t.ty sty [] [])) → bodyNamed E f ts l c sty = bodyNamed E g ts l c sty
  | .nil, _, _, _, _ => rfl
  | .cons n a as t r, l, c, sty, h => by
    simp only [Terms.toList, List.mem_cons, forall_eq_or_imp] at h
    simp only [bodyNamed, bodyNamed_congr r l c sty h.2]
    funext sa da st
    split
    · rename_i hn
      rw [h.1 hn]
    · rfl

theorem bodyAt_congr {E : Env} {f g : Op → Exec} : ∀ (ts : Terms) (l : VarL) (i : Nat)
    (sty : Ty) (hm : List (Comp × Nat)), (∀ t, ts.toList[i]? = some t →
      f (.transcode t.ty sty [] []) = g (.transcode t.ty sty [] [])) →
    bodyAt E f ts l i sty hm = bodyAt E g ts l i sty hm
  | .nil, _, _, _, _, _ => rfl
  | .cons n a as t r, l, 0, sty, hm, h => by
    simp only [Terms.toList, List.getElem?_cons_zero, Option.some.injEq, forall_eq'] at h
    simp only [bodyAt, h]
  | .cons n a as t r, l, i + 1, sty, hm, h => by
    simp only [Terms.toList, List.getElem?_cons_succ] at h
    simp only [bodyAt]
    exact bodyAt_congr r l i sty hm h

theorem switchOn_block {β} (tag : Nat) (d : β) : ∀ (vs : List Nat) (bs : List β),
    switchOn tag d vs bs = d ∨ switchOn tag d vs bs ∈ bs
  | [], _ => by simp [switchOn]
  | _ :: _, [] => by simp [switchOn]
  | v :: vs, b :: bs => by
    simp only [switchOn]
    split
    · simp
    · rcases switchOn_block tag d vs bs with h | h
      · exact .inl h
      · exact .inr (List.mem_cons_of_mem _ h)

theorem matchTag_some {l : List Term} {tag : Nat} {t : Term}
    (h : matchTag (l.map fun t => (t.tag, some t)) none tag = some t) : t ∈ l := by
  unfold matchTag at h
  rcases switchOn_block tag (none : Option Term)
    (matchCaseVals (l.map fun t => (t.tag, some t)))
    ((matchBlocks (l.map fun t => (t.tag, some t))).map (·.2)) with h1 | h1
  · rw [h] at h1; simp at h1
  · rw [h] at h1
    simp only [matchBlocks, List.mem_map, sortBy_mem] at h1
    obtain ⟨_, ⟨u, hu, rfl⟩, h2⟩ := h1
    simp only [Option.some.injEq] at h2
    exact h2 ▸ hu

theorem termOps_congr {E : Env} {f g : Op → Exec} {dts : Terms} {dl : VarL} {t : Term}
    {hm : List (Comp × Nat)} (h : ∀ o ∈ termOps dts dl t, f o = g o) :
    (dts.hasName t.name = true → bodyNamed E f dts dl t.name t.ty = bodyNamed E g dts dl t.name t.ty) ∧
    (dts.hasName t.name ≠ true →
      bodyAt E f dts dl dl.dflt t.ty hm = bodyAt E g dts dl dl.dflt t.ty hm) := by
  refine ⟨fun hn => bodyNamed_congr _ _ _ _ fun u hu he => ?_,
    fun hn => bodyAt_congr _ _ _ _ _ fun u hu => ?_⟩
  · apply h
    simp only [termOps, hn, if_true, List.mem_map, List.mem_filter]
    exact ⟨u, ⟨hu, by simp [he]⟩, rfl⟩
  · apply h
    simp [termOps, hn, dfltOps, hu]

theorem selected_dflt {S : Mem} {sts : Terms} {sl : VarL} {p : Path} {sa : Nat} {dts : Terms}
    {dl : VarL} {t : Term} (hsel : selectTerm S sts sl p sa = some none)
    (ht : dts.toList[dl.dflt]? = some t) :
    Op.transcode t.ty .unit [] [] ∈ variantOps dts dl sts p := by
  cases p with
  | cons c p =>
    simp only [selectTerm] at hsel
    split at hsel <;> simp at hsel
  | nil =>
    simp only [variantOps, List.mem_append]
    exact .inl (by simp [dfltOps, ht])

theorem selected_term {S : Mem} {sts : Terms} {sl : VarL} {p : Path} {sa : Nat} {dts : Terms}
    {dl : VarL} {t : Term} (hsel : selectTerm S sts sl p sa = some (some t)) {o : Op}
    (ho : o ∈ termOps dts dl t) : o ∈ variantOps dts dl sts p := by
  cases p with
  | cons c p =>
    simp only [selectTerm] at hsel
    simp only [variantOps]
    cases hc : sts.toList.find? (fun t => t.name == c) with
    | none => rw [hc] at hsel; simp at hsel
    | some u =>
      rw [hc] at hsel
      simp only [Option.some.injEq] at hsel
      subst hsel
      exact ho
  | nil =>
    simp only [variantOps, List.mem_append, List.mem_flatMap]
    refine .inr ⟨t, ?_, ho⟩
    cases sts with
    | nil => simp [selectTerm] at hsel
    | cons n a as ty r =>
      simp only [selectTerm] at hsel
      split at hsel
      · simp at hsel
      · simp only [Option.some.injEq] at hsel
        exact matchTag_some hsel

/-- What a body does depends on the operations it contains only. -/
theorem fnBody_congr {E : Env} {f g : Op → Exec} {k : FnKey} (h : ∀ o ∈ fnOps k, f o = g o) :
    fnBody E f k = fnBody E g k := by
  obtain ⟨d, s, p, hs, b⟩ := k
  funext sa da st
  cases d with
  | int => rfl
  | float => rfl
  | unit => rfl
  | struct dfs dsz dal =>
    simp only [fnBody, fnOps] at h ⊢
    cases hs' : srcFields s with
    | none => rfl
    | some sfs =>
      simp only [hs'] at h
      simp only [bodyFields_congr dfs _ sfs p hs h]
  | variant dts dl =>
    simp only [fnBody, fnOps] at h ⊢
    cases hs' : srcTerms s with
    | none => rfl
    | some x =>
      obtain ⟨sts, sl⟩ := x
      simp only [hs'] at h
      simp only
      cases handlerMap hs with
      | none => rfl
      | some hm =>
        simp only
        cases hsel : selectTerm E.S sts sl p sa with
        | none => rfl
        | some o =>
          cases o with
          | none =>
            simp only
            rw [bodyAt_congr (f := f) (g := g) dts dl dl.dflt .unit hm fun t ht =>
              h _ (selected_dflt hsel ht)]
          | some t =>
            simp only
            have ht : ∀ o ∈ termOps dts dl t, f o = g o := fun o ho => h o (selected_term hsel ho)
            have hc := termOps_congr (E := E) (hm := hm) ht
            by_cases hn : dts.hasName t.name = true
            · rw [if_pos hn, if_pos hn, hc.1 hn]
            · rw [if_neg hn, if_neg hn, hc.2 hn]
  | array de dn desz dal =>
    simp only [fnBody, fnOps] at h ⊢
    cases hs' : srcArray de s with
    | none => rfl
    | some x =>
      simp only [hs'] at h
      simp only [List.mem_cons, List.not_mem_nil, or_false, forall_eq_or_imp, forall_eq] at h
      simp only [h.1, h.2]
  | vector de dl =>
    simp only [fnBody, fnOps] at h ⊢
    cases s with
    | none => rfl
    | some s =>
      cases s with
      | vector se sl =>
        simp only [List.mem_cons, List.not_mem_nil, or_false, forall_eq] at h
        simp only [h]
      | _ => rfl

end PJ
